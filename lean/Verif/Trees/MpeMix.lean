import Verif.Trees.MpeSpec
import Verif.Trees.LikelihoodLemmas
import Verif.Trees.Lemmas9
import Verif.Trees.Props14
import Verif.Numeric.MpeDens

/-!
# Explanations of trees with numeric variables
-/

namespace Verif.Trees

open Iv (FP NS)
open Learn (Cfg Data learn DataOK fullOf)
open Fun (PF)

/-! ## Leaves -/

section Leaves

variable {D E K X : Type} {o : DistOps D E} {val : K → X → Prop} {has : E → X → Prop} {kind : ℕ → K} {n : ℕ}

/-- `mpe` of a distribution with the densities `g`, after infinite densities are replaced. -/
def Best (o : DistOps D E) (δ : Option ℚ) (val : X → Prop) (has : E → X → Prop) (d : D) (g : X → ℚ) : Prop :=
  ∃ s x m, o.mpe d = .ok (s, x) ∧ capDist δ x = .ok m ∧ 0 < m ∧ (∀ y, val y → 0 ≤ g y ∧ g y ≤ m) ∧
    (∀ y, has s y ↔ val y ∧ g y = m) ∧ ∃ y, has s y

theorem best_fold (dists : ℕ → Option ℚ) : ∀ (ds : List D) (gs : List (X → ℚ)) (k : ℕ)
    (kind : ℕ → K) (acc : List E × ℚ), gs.length = ds.length → (∀ (v : ℕ) (d : D) (g : X → ℚ), ds[v]? = some d →
      gs[v]? = some g → Best o (dists (k + v)) (val (kind v)) has d g) →
    ∃ s m, (ds.zipIdx k).foldlM (fun acc d => (do
        let m ← o.mpe d.1
        let x ← capDist (dists d.2) m.2
        return (acc.1 ++ [m.1], acc.2 * x) : Except Err (List E × ℚ))) acc = .ok (acc.1 ++ s, acc.2 * m) ∧
      Explains val (fun g x => g x) has kind gs s m
  | [], [], k, kind, acc, _, _ => ⟨[], 1, by simp [pure, Except.pure], explains_nil⟩
  | [], _ :: _, _, _, _, h, _ => by simp at h
  | _ :: _, [], _, _, _, h, _ => by simp at h
  | d :: ds, g :: gs, k, kind, acc, hlen, hb => by
    obtain ⟨s, x, m, h1, h1', h2, h3, h4, h5⟩ := hb 0 d g rfl rfl
    obtain ⟨ss, ms, h6, h7⟩ := best_fold dists ds gs (k + 1) (fun v => kind (v + 1))
      (acc.1 ++ [s], acc.2 * m) (by simpa using hlen) (fun v e g' he hg => by
        have := hb (v + 1) e g' (by simpa using he) (by simpa using hg)
        rwa [show k + 1 + v = k + (v + 1) by omega])
    refine ⟨s :: ss, m * ms, ?_, h7.cons (fun x hx => (h3 x hx).1) h2 (fun x hx => (h3 x hx).2) h4 h5⟩
    rw [List.zipIdx_cons, List.foldlM_cons]
    rw [Nat.add_zero] at h1'
    simp only [h1, bind, Except.bind, pure, Except.pure, h1']
    simp only [bind, Except.bind, pure, Except.pure] at h6
    rw [h6]
    simp only [List.append_assoc, List.singleton_append, mul_assoc]

theorem leaf_best (dists : ℕ → Option ℚ) (l : Leaf D) (gs : List (X → ℚ)) (hlen : gs.length = l.dists.length)
    (hb : ∀ (v : ℕ) (d : D) (g : X → ℚ), l.dists[v]? = some d → gs[v]? = some g → Best o (dists v) (val (kind v)) has d g) :
    ∃ s m, l.mpe o dists = .ok (s, l.prior * m) ∧ Explains val (fun g x => g x) has kind gs s m := by
  obtain ⟨s, m, h1, h2⟩ := best_fold dists l.dists gs 0 kind ([], l.prior) hlen (fun v d g hd hg => by
    rw [Nat.zero_add]; exact hb v d g hd hg)
  exact ⟨s, m, by rw [← List.nil_append s]; exact h1, h2⟩

end Leaves

variable {L : Type} [DecidableEq L] {val : ℤ → ℚ} {idx rnd : ℚ → ℤ}

/-! ## Densities -/

/-- The density of a distribution at a value; `top` replaces infinity. -/
def cellDens (idx : ℚ → ℤ) (top : ℚ) : MD L → Cell L → ℚ
  | .inl p, .inl y =>
    match (Num.pdf p).bind (fun d => Num.densAt d (.fin (idx y))) with
    | .ok (.fin q) => q
    | .ok .pinf => top
    | _ => 0
  | .inr d, .inr x => discDens d x
  | _, _ => 0

/-- The density of a variable in a leaf. -/
def leafCell (idx : ℚ → ℤ) (top : ℕ → ℚ) (l : Leaf (MD L)) (v : ℕ) (x : Cell L) : ℚ :=
  match l.dists[v]? with
  | some d => cellDens idx (top v) d x
  | none => 0

theorem num_best (hval : StrictMono val) (hidx : ∀ n, idx (val n) = n) {eps : ℚ} {s : List ℤ} (hne : s ≠ []) {top : ℚ}
    (ht : 0 < top) : ∃ (p : PF) (F : ℤ → ℚ), Num.fit val eps s = .ok p ∧ (∀ n, p.eval val n = .ok (some (F n))) ∧
      NumDensity val top s F (fun m => cellDens (L := L) idx top (.inl p) (.inl (val m))) ∧
      Best (mixOps L val idx rnd) (some top) (CellOK val (.inl ())) (InState val) (.inl p) (cellDens idx top (.inl p)) := by
  have hload : Num.loadBuffer s none none = .ok s := by simp [Num.loadBuffer]
  obtain ⟨lo, hlo, hmin⟩ := Num.exists_least hne
  obtain ⟨hi, hhi, hmax⟩ := Num.exists_greatest hne
  rcases (hmin hi hhi).lt_or_eq with hlt | heq
  · obtain ⟨p, F, g, h1, h2, h3, h4, h5, h6, h7⟩ := Num.fit_dens hval (eps := eps) hload hlo hhi hlt hmin hmax
    have hg : ∀ m, cellDens (L := L) idx top (.inl p) (.inl (val m)) = g m := by
      intro m
      simp only [cellDens, h3, Except.bind, hidx, h4]
    have hND : NumDensity val top s F (fun m => cellDens (L := L) idx top (.inl p) (.inl (val m))) := by
      rw [show (fun m => cellDens (L := L) idx top (.inl p) (.inl (val m))) = g from funext hg]
      exact ⟨lo, hi, hlo, hhi, fun x hx => ⟨hmin x hx, hmax x hx⟩, fun h => absurd h (by omega), fun _ => ⟨h5, h6, h7⟩⟩
    refine ⟨p, F, h1, h2, hND, ?_⟩
    obtain ⟨p', hp', hc, hl⟩ := Num.fit_cdf hval (eps := eps) hload hne
    rw [h1] at hp'
    obtain rfl := Except.ok.inj hp'
    obtain ⟨d, S, m, k1, k2, k3, ⟨n0, k4⟩, k5⟩ := Num.cdf_mpe hc (hl ⟨lo, hlo, hi, hhi, hlt.ne⟩).2
    rw [h3] at k1
    obtain rfl := Except.ok.inj k1
    have hS : ∀ n, g n ≤ m ∧ (S.Mem (.fin n) ↔ g n = m) := fun n => k5 n (g n) (h4 n)
    refine ⟨.inl S, .fin m, m, ?_, rfl, k3, ?_, ?_, ⟨.inl (val n0), n0, rfl, k4⟩⟩
    · simp only [sumOps, numOps, h3, k2, bind, Except.bind]
      rfl
    · rintro (y | x) hy
      · obtain ⟨n, rfl⟩ := hy
        refine ⟨hND.nonneg ht.le n, ?_⟩
        rw [hg]
        exact (hS n).1
      · exact hy.elim
    · rintro (y | x)
      · constructor
        · rintro ⟨n, rfl, hn⟩
          refine ⟨⟨n, rfl⟩, ?_⟩
          rw [hg]
          exact (hS n).2.1 hn
        · rintro ⟨⟨n, rfl⟩, hn⟩
          rw [hg] at hn
          exact ⟨n, rfl, (hS n).2.2 hn⟩
      · constructor
        · intro h; exact h.elim
        · intro h; exact h.1.elim
  · subst heq
    have hp := Num.fit_single (val := val) (eps := eps) hload hlo (fun y hy => le_antisymm (hmax y hy) (hmin y hy))
    obtain ⟨d, h1, h2, -⟩ := Num.jump_dens lo
    have hg : ∀ m, cellDens (L := L) idx top (.inl (Num.jumpCdf lo)) (.inl (val m)) = if m = lo then top else 0 := by
      intro m
      simp only [cellDens, h1, Except.bind, hidx, h2]
      by_cases h : m = lo
      · simp only [if_pos h]
      · simp only [if_neg h]
    have hND : NumDensity val top s (fun n => if n < lo then 0 else 1)
        (fun m => cellDens (L := L) idx top (.inl (Num.jumpCdf lo)) (.inl (val m))) :=
      ⟨lo, lo, hlo, hlo, fun x hx => ⟨hmin x hx, hmax x hx⟩, fun _ n => hg n, fun h => absurd h (by omega)⟩
    refine ⟨Num.jumpCdf lo, fun n => if n < lo then 0 else 1, hp, fun n => ?_, hND, ?_⟩
    · have := Num.tile_eval (val := val) (f := .const 0) (l := [(lo, .const 1)]) (n := n)
      rw [show Num.jumpCdf lo = Num.tile .ninf (.const 0) [(lo, .const 1)] .pinf from rfl, this]
      simp only [Num.tileAt]
      split <;> rfl
    · obtain ⟨d', S, k1, k2, k3⟩ := Num.C76_dirac lo
      refine ⟨.inl S, .pinf, top, ?_, rfl, ht, ?_, ?_, ⟨.inl (val lo), lo, rfl, (k3 lo).2 rfl⟩⟩
      · simp only [sumOps, numOps, k1, k2, bind, Except.bind]
        rfl
      · rintro (y | x) hy
        · obtain ⟨n, rfl⟩ := hy
          refine ⟨hND.nonneg ht.le n, ?_⟩
          rw [hg]
          split
          · exact le_rfl
          · exact ht.le
        · exact hy.elim
      · rintro (y | x)
        · constructor
          · rintro ⟨n, rfl, hn⟩
            refine ⟨⟨n, rfl⟩, ?_⟩
            rw [hg, if_pos ((k3 n).1 hn)]
          · rintro ⟨⟨n, rfl⟩, hn⟩
            rw [hg] at hn
            refine ⟨n, rfl, (k3 n).2 ?_⟩
            by_contra hc
            rw [if_neg hc] at hn
            exact ht.ne hn
        · constructor
          · intro h; exact h.elim
          · intro h; exact h.1.elim

theorem disc_best (δ : Option ℚ) {top : ℚ} {k : Bool × Disc.Dom L} {d : DD L} (hd : discOk k d) :
    Best (mixOps L val idx rnd) δ (CellOK val (.inr k)) (InState val) (.inr d) (cellDens idx top (.inr d)) := by
  obtain ⟨s, m, h1, h2, h3, h4, x0, h5⟩ := disc_mpe.best k d hd
  refine ⟨.inr s, .fin m, m, ?_, rfl, h2, ?_, ?_, ⟨.inr x0, h5⟩⟩
  · simp only [sumOps, h1]
    rfl
  · rintro (y | x) hy
    · exact hy.elim
    · exact ⟨disc_mpe.nonneg k d x hd hy, h3 x hy⟩
  · rintro (y | x)
    · constructor
      · intro h; exact h.elim
      · intro h; exact h.1.elim
    · exact h4 x

end Verif.Trees
