import Verif.Trees.Spec
import Verif.Trees.Lemmas2
import Verif.Trees.Discrete

/-!
# `mpe`
-/

namespace Verif.Trees

/-- What `mpe()` of a distribution must satisfy: `dens d x` is the likelihood of the value `x`, `val k x`
says that `x` is a value of a variable of kind `k`, and `has s x` that the state `s` contains `x`.  The
state returned contains exactly the values of maximal likelihood. -/
structure MpeLaws {D E K X : Type} (o : DistOps D E) (ok : K → D → Prop) (val : K → X → Prop)
    (dens : D → X → ℚ) (has : E → X → Prop) : Prop where
  nonneg : ∀ k d x, ok k d → val k x → 0 ≤ dens d x
  best : ∀ k d, ok k d → ∃ s m, o.mpe d = .ok (s, .fin m) ∧ 0 < m ∧
    (∀ x, val k x → dens d x ≤ m) ∧ (∀ x, has s x ↔ val k x ∧ dens d x = m) ∧ ∃ x, has s x

variable {D E K X : Type}

/-- The likelihood of an assignment of values to all variables in a leaf, times its prior. -/
def leafDens (dens : D → X → ℚ) (l : Leaf D) (x : List X) : ℚ :=
  l.prior * (List.zipWith dens l.dists x).prod

/-- A value for each of the `n` variables. -/
def Assigns (val : K → X → Prop) (kind : ℕ → K) (n : ℕ) (x : List X) : Prop :=
  x.length = n ∧ ∀ (v : ℕ) (y : X), x[v]? = some y → val (kind v) y

variable {o : DistOps D E} {ok : K → D → Prop} {val : K → X → Prop} {dens : D → X → ℚ}
  {has : E → X → Prop} {kind : ℕ → K} {n : ℕ}

/-- The explanation of a leaf. -/
structure Explains (val : K → X → Prop) (dens : D → X → ℚ) (has : E → X → Prop) (kind : ℕ → K)
    (ds : List D) (s : List E) (m : ℚ) : Prop where
  pos : 0 < m
  le : ∀ x, Assigns val kind ds.length x → 0 ≤ (List.zipWith dens ds x).prod ∧
    (List.zipWith dens ds x).prod ≤ m
  iff : ∀ x, List.Forall₂ has s x ↔ Assigns val kind ds.length x ∧ (List.zipWith dens ds x).prod = m
  ex : ∃ x, List.Forall₂ has s x

theorem assigns_cons {y : X} {x : List X} {k : ℕ} : Assigns val kind (k + 1) (y :: x) ↔
    val (kind 0) y ∧ Assigns val (fun v => kind (v + 1)) k x := by
  unfold Assigns
  constructor
  · rintro ⟨h1, h2⟩
    exact ⟨h2 0 y rfl, by simpa using h1, fun v z hz => h2 (v + 1) z (by simpa using hz)⟩
  · rintro ⟨h1, h2, h3⟩
    refine ⟨by simp [h2], ?_⟩
    intro v z hz
    cases v with
    | zero => cases hz; exact h1
    | succ v => exact h3 v z (by simpa using hz)

/-- One more variable. -/
theorem Explains.cons {d : D} {ds : List D} {s : E} {ss : List E} {m ms : ℚ}
    (h0 : ∀ x, val (kind 0) x → 0 ≤ dens d x) (hpos : 0 < m) (hle : ∀ x, val (kind 0) x → dens d x ≤ m)
    (hiff : ∀ x, has s x ↔ val (kind 0) x ∧ dens d x = m) (hex : ∃ x, has s x)
    (h : Explains val dens has (fun v => kind (v + 1)) ds ss ms) :
    Explains val dens has kind (d :: ds) (s :: ss) (m * ms) where
  pos := mul_pos hpos h.pos
  le := by
    intro x hx
    cases x with
    | nil => have := hx.1; simp at this
    | cons y x =>
      obtain ⟨hy, hx⟩ := assigns_cons.1 hx
      obtain ⟨h1, h2⟩ := h.le x hx
      rw [List.zipWith_cons_cons, List.prod_cons]
      exact ⟨mul_nonneg (h0 y hy) h1, mul_le_mul (hle y hy) h2 h1 hpos.le⟩
  iff := by
    intro x
    cases x with
    | nil =>
      constructor
      · intro hx; cases hx
      · rintro ⟨hx, -⟩; have := hx.1; simp at this
    | cons y x =>
      rw [List.forall₂_cons, h.iff, hiff, List.length_cons, assigns_cons, List.zipWith_cons_cons,
        List.prod_cons]
      constructor
      · rintro ⟨⟨h1, h2⟩, h3, h4⟩
        exact ⟨⟨h1, h3⟩, by rw [h2, h4]⟩
      · rintro ⟨⟨h1, h3⟩, h2⟩
        obtain ⟨h4, h5⟩ := h.le x h3
        have h6 := hle y h1
        have h7 := h0 y h1
        have hy : dens d y = m := by
          by_contra hc
          have hlt := lt_of_le_of_ne h6 hc
          have : dens d y * (List.zipWith dens ds x).prod < m * ms := by
            calc dens d y * (List.zipWith dens ds x).prod
                ≤ dens d y * ms := mul_le_mul_of_nonneg_left h5 h7
              _ < m * ms := mul_lt_mul_of_pos_right hlt h.pos
          exact absurd h2 this.ne
        refine ⟨⟨h1, hy⟩, h3, ?_⟩
        rw [hy] at h2
        exact mul_left_cancel₀ hpos.ne' h2
  ex := by
    obtain ⟨x, hx⟩ := hex
    obtain ⟨xs, hxs⟩ := h.ex
    exact ⟨x :: xs, .cons hx hxs⟩

theorem explains_nil : Explains val dens has kind ([] : List D) ([] : List E) 1 where
  pos := one_pos
  le := by
    intro x _
    simp
  iff := by
    intro x
    cases x with
    | nil => simp [Assigns]
    | cons y x =>
      constructor
      · intro hx; cases hx
      · rintro ⟨hx, -⟩; have := hx.1; simp at this
  ex := ⟨[], .nil⟩

/-- The loop of `Leaf.mpe`. -/
theorem mpe_fold (M : MpeLaws o ok val dens has) (dists : ℕ → Option ℚ) : ∀ (ds : List D) (k : ℕ)
    (kind : ℕ → K) (acc : List E × ℚ), (∀ (v : ℕ) (d : D), ds[v]? = some d → ok (kind v) d) →
    ∃ s m, (ds.zipIdx k).foldlM (fun acc d => (do
        let m ← o.mpe d.1
        let x ← capDist (dists d.2) m.2
        return (acc.1 ++ [m.1], acc.2 * x) : Except Err (List E × ℚ))) acc = .ok (acc.1 ++ s, acc.2 * m) ∧
      Explains val dens has kind ds s m
  | [], k, kind, acc, _ => ⟨[], 1, by simp [pure, Except.pure], explains_nil⟩
  | d :: ds, k, kind, acc, hok => by
    obtain ⟨s, m, h1, h2, h3, h4, h5⟩ := M.best (kind 0) d (hok 0 d rfl)
    obtain ⟨ss, ms, h6, h7⟩ := mpe_fold M dists ds (k + 1) (fun v => kind (v + 1))
      (acc.1 ++ [s], acc.2 * m) (fun v e he => hok (v + 1) e (by simpa using he))
    refine ⟨s :: ss, m * ms, ?_, h7.cons (fun x hx => M.nonneg _ d x (hok 0 d rfl) hx) h2 h3 h4 h5⟩
    rw [List.zipIdx_cons, List.foldlM_cons]
    simp only [h1, bind, Except.bind, pure, Except.pure]
    rw [show capDist (dists k) (XQ.fin m) = .ok m from rfl]
    simp only
    simp only [bind, Except.bind, pure, Except.pure] at h6
    rw [h6]
    simp only [List.append_assoc, List.singleton_append, mul_assoc]

/-- `Leaf.mpe`. -/
theorem leaf_mpe (M : MpeLaws o ok val dens has) (dists : ℕ → Option ℚ) (l : Leaf D)
    (hok : ∀ (v : ℕ) (d : D), l.dists[v]? = some d → ok (kind v) d) :
    ∃ s m, l.mpe o dists = .ok (s, l.prior * m) ∧ Explains val dens has kind l.dists s m := by
  obtain ⟨s, m, h1, h2⟩ := mpe_fold M dists l.dists 0 kind ([], l.prior) hok
  exact ⟨s, m, by rw [← List.nil_append s]; exact h1, h2⟩

/-- The states that attain the maximum over all leaves. -/
theorem mpeOf_explained {D' : Type} {dens : D' → X → ℚ} (dists : ℕ → Option ℚ) {h : Heap D} (G : ℕ × Leaf D → List D')
    (hd : ∀ e ∈ h.leaves, (G e).length = n)
    (hG : ∀ e ∈ h.leaves, ∃ s m, e.2.mpe o dists = .ok (s, e.2.prior * m) ∧ Explains val dens has kind (G e) s m)
    (hp : ∀ e ∈ h.leaves, 0 ≤ e.2.prior) (hne : ∃ e ∈ h.leaves, e.2.prior ≠ 0) :
    ∃ ss m, mpeOf o dists h = .ok (ss, m) ∧ 0 < m ∧ ss ≠ [] ∧
      (∀ l ∈ h.leaves, ∀ x, Assigns val kind n x → l.2.prior * (List.zipWith dens (G l) x).prod ≤ m) ∧
      (∀ s ∈ ss, (∃ x, List.Forall₂ has s x) ∧
        ∃ l ∈ h.leaves, ∀ x, List.Forall₂ has s x ↔ Assigns val kind n x ∧ l.2.prior * (List.zipWith dens (G l) x).prod = m) ∧
      (∀ l ∈ h.leaves, ∀ x, Assigns val kind n x → l.2.prior * (List.zipWith dens (G l) x).prod = m →
        ∃ s ∈ ss, List.Forall₂ has s x) := by
  choose! f g hf hE using hG
  have h1 : h.leaves.mapM (fun l => l.2.mpe o dists)
      = .ok (h.leaves.map (fun l => (f l, l.2.prior * g l))) := mapM_ok hf
  obtain ⟨e, he, hpe⟩ := hne
  have hsnd : (h.leaves.map (fun l => (f l, l.2.prior * g l))).map Prod.snd
      = h.leaves.map (fun l => l.2.prior * g l) := by rw [List.map_map]; rfl
  obtain ⟨m, hm⟩ : ∃ m, (h.leaves.map (fun l => l.2.prior * g l)).max? = some m := by
    cases hc : (h.leaves.map (fun l => l.2.prior * g l)).max? with
    | none =>
      rw [List.max?_eq_none_iff, List.map_eq_nil_iff] at hc
      rw [hc] at he
      cases he
    | some m => exact ⟨m, rfl⟩
  obtain ⟨hm1, hm2⟩ := List.max?_eq_some_iff.1 hm
  have hpos : 0 < m := by
    have h2 := hm2 (e.2.prior * g e) (List.mem_map.2 ⟨e, he, rfl⟩)
    have h3 : 0 < e.2.prior * g e :=
      mul_pos (lt_of_le_of_ne (hp e he) (Ne.symm hpe)) (hE e he).pos
    linarith
  have hleaf : ∀ l ∈ h.leaves, l.2.prior * g l = m → 0 < l.2.prior := by
    intro l hl hlm
    refine lt_of_le_of_ne (hp l hl) (fun hc => ?_)
    rw [← hc, zero_mul] at hlm
    linarith
  have hlen : ∀ l ∈ h.leaves, ∀ x, Assigns val kind n x → Assigns val kind (G l).length x := by
    intro l hl x hx
    rw [hd l hl]; exact hx
  refine ⟨((h.leaves.map (fun l => (f l, l.2.prior * g l))).filter
    (fun x => decide (x.2 = m))).map Prod.fst, m, ?_, hpos, ?_, ?_, ?_, ?_⟩
  · unfold mpeOf
    rw [h1]
    simp only [bind, Except.bind]
    rw [hsnd, hm]
    rfl
  · obtain ⟨l, hl, hlm⟩ := List.mem_map.1 hm1
    have : (f l) ∈ ((h.leaves.map (fun l => (f l, l.2.prior * g l))).filter
        (fun x => decide (x.2 = m))).map Prod.fst :=
      List.mem_map.2 ⟨(f l, l.2.prior * g l), List.mem_filter.2
        ⟨List.mem_map.2 ⟨l, hl, rfl⟩, by simpa using hlm⟩, rfl⟩
    exact List.ne_nil_of_mem this
  · intro l hl x hx
    obtain ⟨h2, h3⟩ := (hE l hl).le x (hlen l hl x hx)
    calc l.2.prior * (List.zipWith dens (G l) x).prod ≤ l.2.prior * g l := mul_le_mul_of_nonneg_left h3 (hp l hl)
      _ ≤ m := hm2 _ (List.mem_map.2 ⟨l, hl, rfl⟩)
  · intro s hs
    obtain ⟨⟨s', p⟩, hmem, rfl⟩ := List.mem_map.1 hs
    obtain ⟨hmem, hpm⟩ := List.mem_filter.1 hmem
    obtain ⟨l, hl, hlp⟩ := List.mem_map.1 hmem
    injection hlp with h2 h3
    have hpm : p = m := by simpa using hpm
    simp only
    rw [← h2]
    refine ⟨(hE l hl).ex, l, hl, fun x => ?_⟩
    rw [(hE l hl).iff, hd l hl]
    apply and_congr_right
    intro _
    rw [← hpm, ← h3]
    have := hleaf l hl (by rw [h3, hpm])
    exact (mul_right_inj' this.ne').symm
  · intro l hl x hx hxm
    obtain ⟨h2, h3⟩ := (hE l hl).le x (hlen l hl x hx)
    have h4 : l.2.prior * g l = m := by
      apply le_antisymm
      · exact hm2 _ (List.mem_map.2 ⟨l, hl, rfl⟩)
      · rw [← hxm]
        exact mul_le_mul_of_nonneg_left h3 (hp l hl)
    refine ⟨f l, ?_, ?_⟩
    · exact List.mem_map.2 ⟨(f l, l.2.prior * g l), List.mem_filter.2
        ⟨List.mem_map.2 ⟨l, hl, rfl⟩, by simpa using h4⟩, rfl⟩
    · rw [(hE l hl).iff]
      refine ⟨hlen l hl x hx, ?_⟩
      have h5 := hleaf l hl h4
      have h6 : l.2.prior * (List.zipWith dens (G l) x).prod = l.2.prior * g l := by
        rw [h4, ← hxm]
      exact mul_left_cancel₀ h5.ne' h6

/-- The states that attain the maximum, for distributions with finite densities. -/
theorem mpeOf_eq (M : MpeLaws o ok val dens has) (dists : ℕ → Option ℚ) {h : Heap D}
    (hd : ∀ e ∈ h.leaves, e.2.dists.length = n ∧
      ∀ (v : ℕ) (d : D), e.2.dists[v]? = some d → ok (kind v) d)
    (hp : ∀ e ∈ h.leaves, 0 ≤ e.2.prior) (hne : ∃ e ∈ h.leaves, e.2.prior ≠ 0) :
    ∃ ss m, mpeOf o dists h = .ok (ss, m) ∧ 0 < m ∧ ss ≠ [] ∧
      (∀ l ∈ h.leaves, ∀ x, Assigns val kind n x → leafDens dens l.2 x ≤ m) ∧
      (∀ s ∈ ss, (∃ x, List.Forall₂ has s x) ∧
        ∃ l ∈ h.leaves, ∀ x, List.Forall₂ has s x ↔ Assigns val kind n x ∧ leafDens dens l.2 x = m) ∧
      (∀ l ∈ h.leaves, ∀ x, Assigns val kind n x → leafDens dens l.2 x = m →
        ∃ s ∈ ss, List.Forall₂ has s x) :=
  mpeOf_explained dists (fun l => l.2.dists) (fun l hl => (hd l hl).1) (fun l hl => leaf_mpe M dists l.2 (hd l hl).2) hp hne

/-! ## Discrete distributions -/

/-- A label of the domain. -/
def discVal {L : Type} (k : Bool × Disc.Dom L) (x : L) : Prop := x ∈ k.2.labels

/-- The probability of a label. -/
def discDens {L : Type} [DecidableEq L] (d : DD L) (x : L) : ℚ := d.2.P (fun m => m = x)

/-- A state contains a label. -/
def discHas {L : Type} (s : Disc.Arg L) (x : L) : Prop := x ∈ s.elems

theorem disc_mpe {L : Type} [DecidableEq L] :
    MpeLaws (discOps L) discOk discVal discDens discHas where
  nonneg := by
    rintro k d x ⟨_, _, hd⟩ _
    exact Disc.mass_nonneg _ _ _ hd.2.2.1
  best := by
    rintro k d ⟨_, h2, hd⟩
    obtain ⟨ls, p, h3, h4, h5, h6, h7, -⟩ := Disc.C30_mpe d.2 hd
    refine ⟨.set ls, p, ?_, h4, ?_, ?_, ?_⟩
    · simp only [discOps, h3, bind, Except.bind, pure, Except.pure]
    · intro x hx
      exact h5 x (by rw [h2]; exact hx)
    · intro x
      show x ∈ ls ↔ _
      rw [h6, h2]
      rfl
    · obtain ⟨x, hx⟩ := List.exists_mem_of_ne_nil _ h7
      exact ⟨x, hx⟩

end Verif.Trees
