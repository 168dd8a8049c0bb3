import Verif.Trees.Lemmas14
import Verif.Trees.Props2
import Mathlib.Algebra.Order.Positive.Field
import Mathlib.Algebra.Order.Monoid.OrderDual
import Mathlib.Algebra.Order.Monoid.TypeTags

/-!
# Properties of `kmpe`: C50
-/

namespace Verif.Trees

open Learn (Cfg Data learn DataOK fullOf exists_ok)
open Mpe (Choice Shows solveDiscrete RawCost)

variable {L : Type} {K : Type} [LinearOrder K] [AddCommGroup K] [IsOrderedAddMonoid K]
  {kind : ℕ → Bool × Disc.Dom L} {full : ℕ → Region} {n : ℕ} {h : Heap (DD L)}

/-- The distributions of a leaf by variable. -/
def Leaf.byVar (l : Leaf (DD L)) : List (ℕ × Disc.Dist L) := l.dists.zipIdx.map (fun d => (d.2, d.1.2))

/-- `s` lists the explanations of a leaf: for each choice of one of the positive probabilities of each
variable there is exactly one, and there are no others. -/
def Solves (l : Leaf (DD L)) (s : List MState) : Prop :=
  (∀ x ∈ s, ∃ f, Choice l.byVar f ∧ Shows l.byVar f x) ∧
  ∀ f, Choice l.byVar f → ∃! i : ℕ, ∃ x, s[i]? = some x ∧ Shows l.byVar f x

theorem byVar_fst (l : Leaf (DD L)) : l.byVar.map Prod.fst = List.range l.dists.length := by
  unfold Leaf.byVar
  rw [List.map_map]
  have : (Prod.fst ∘ fun d : DD L × ℕ => (d.2, d.1.2)) = Prod.snd := rfl
  rw [this, List.zipIdx_map_snd, List.range_eq_range']

theorem byVar_ok (hT : TreeOK discOk discFits discP kind full n h) {e : ℕ × Leaf (DD L)} (he : e ∈ h.leaves)
    {x : ℕ × Disc.Dist L} (hx : x ∈ e.2.byVar) : x.2.Proper := by
  obtain ⟨d, hd, rfl⟩ := List.mem_map.1 hx
  have h1 := List.mem_zipIdx_iff_getElem?.1 hd
  exact ((hT.dists e he).2 _ _ h1).2.2

theorem proper_pos {d : Disc.Dist L} (hd : d.Proper) : ∃ q ∈ d.params, q ≠ 0 := by
  by_contra hc
  push Not at hc
  have : d.params.sum = 0 := List.sum_eq_zero hc
  rw [hd.2.2.2] at this
  exact one_ne_zero this

theorem choice_exists {ds : List (ℕ × Disc.Dist L)} (hv : (ds.map Prod.fst).Nodup)
    (hpos : ∀ x ∈ ds, ∃ q ∈ x.2.params, q ≠ 0) : ∃ f, Choice ds f := by
  refine ⟨fun v => ((ds.lookup v).bind (fun d => d.params.find? (fun q => decide (q ≠ 0)))).getD 0, ?_⟩
  intro x hx
  have h1 : ds.lookup x.1 = some x.2 := Dict.mem_lookup hv hx
  obtain ⟨q, hq, hq0⟩ := hpos x hx
  cases h2 : x.2.params.find? (fun q => decide (q ≠ 0)) with
  | none => exact absurd hq0 (by simpa using List.find?_eq_none.1 h2 q hq)
  | some r =>
    simp only [h1, Option.bind_some, h2, Option.getD_some]
    exact ⟨List.mem_of_find?_eq_some h2, by simpa using List.find?_some h2⟩

section

variable [DecidableEq L]

theorem solutions_ok (hT : TreeOK discOk discFits discP kind full n h) (hn : 0 < n) (neglog : ℚ → RawCost K)
    (hlog : ∀ q, 0 < q → ∃ k : K, neglog q = ((k : WithTop K) : WithBot (WithTop K)))
    {e : ℕ × Leaf (DD L)} (he : e ∈ h.leaves) :
    ∃ s, e.2.solutions neglog = .ok s ∧ Solves e.2 s ∧ s ≠ [] := by
  have hv : (e.2.byVar.map Prod.fst).Nodup := by rw [byVar_fst]; exact List.nodup_range
  have hpos : ∀ x ∈ e.2.byVar, ∃ q ∈ x.2.params, q ≠ 0 := fun x hx => proper_pos (byVar_ok hT he hx)
  have hne : e.2.byVar ≠ [] := by
    intro hc
    have := byVar_fst e.2
    rw [hc, (hT.dists e he).1] at this
    have := congrArg List.length this
    simp at this
    omega
  obtain ⟨s, h1, h2, h3⟩ := Mpe.C49_discrete neglog e.2.byVar hne hv hpos (by
    intro x hx q hq hq0
    apply hlog
    have h4 := (byVar_ok hT he hx).2.2.1 q hq
    have h5 : 0 < x.2.params.count q := List.count_pos_iff.2 hq
    have h6 : (0 : ℚ) < (x.2.params.count q : ℚ) := by exact_mod_cast h5
    exact mul_pos h6 (lt_of_le_of_ne h4 (Ne.symm hq0)))
  refine ⟨s, h1, ⟨h2, h3⟩, ?_⟩
  rintro rfl
  obtain ⟨f, hf⟩ := choice_exists hv hpos
  obtain ⟨i, ⟨x, hx, -⟩, -⟩ := h3 f hf
  simp at hx

theorem solutions_all (hT : TreeOK discOk discFits discP kind full n h) (hn : 0 < n) (neglog : ℚ → RawCost K)
    (hlog : ∀ q, 0 < q → ∃ k : K, neglog q = ((k : WithTop K) : WithBot (WithTop K))) :
    ∃ ss, h.leaves.mapM (fun l => l.2.solutions neglog) = .ok ss ∧
      List.Forall₂ (fun l s => Solves l.2 s ∧ l.2.solutions neglog = .ok s) h.leaves ss ∧
      ∀ s ∈ ss, s ≠ [] := by
  have key : ∀ ls : List (ℕ × Leaf (DD L)), (∀ l ∈ ls, l ∈ h.leaves) →
      ∃ ss, ls.mapM (fun l => l.2.solutions neglog) = .ok ss ∧
        List.Forall₂ (fun l s => Solves l.2 s ∧ l.2.solutions neglog = .ok s) ls ss ∧ ∀ s ∈ ss, s ≠ [] := by
    intro ls
    induction ls with
    | nil => intro _; exact ⟨[], rfl, .nil, by simp⟩
    | cons l ls ih =>
      intro hl
      obtain ⟨ss, h1, h2, h3⟩ := ih (fun x hx => hl x (List.mem_cons_of_mem _ hx))
      obtain ⟨s, h4, h5, h6⟩ := solutions_ok hT hn neglog hlog (hl l List.mem_cons_self)
      refine ⟨s :: ss, ?_, .cons ⟨h5, h4⟩ h2, ?_⟩
      · rw [List.mapM_cons, h1, h4]
        rfl
      · intro t ht
        rcases List.mem_cons.1 ht with rfl | ht
        · exact h6
        · exact h3 t ht
  exact key h.leaves (fun _ hl => hl)

theorem cond_ok (hT : TreeOK discOk discFits discP kind full n h) (hbin : Binary h) (hsort : Sorted h)
    {priors : List (ℕ × DD L)} (hp : ∀ b ∈ priors, ∃ k, discOk k b.2) {e : Query}
    (he : QueryOK discFits kind n e) {h' : Heap (DD L)} {ps : List (ℕ × DD L)}
    (hc : conditional (discOps L) n full h priors e = .ok (h', ps)) :
    TreeOK discOk discFits discP kind full n h' ∧ (e = [] ∨ mass discP h e ≠ 0) := by
  have hpt : ∀ i ∈ e, i.2.point = none := by
    intro i hi
    obtain ⟨l, hr, -⟩ := (he.2 i hi).2.1
    rw [hr]
    rfl
  by_cases hne : e = []
  · subst hne
    rw [C47_empty disc_laws hT hsort priors hp] at hc
    cases hc
    exact ⟨hT, .inl rfl⟩
  · have h1 := C47_conditional_partial disc_laws hT hbin hsort priors hp he hne hpt
    by_cases hm : mass discP h e = 0
    · rw [h1.1 hm] at hc
      cases hc
    · obtain ⟨h'', ps', h2, h3, -⟩ := h1.2 hm
      rw [hc] at h2
      cases h2
      exact ⟨h3, .inr hm⟩

/-- What `kmpe` yields, for all evidence and `k`.  Every explanation of every leaf of the tree conditioned
on the evidence is yielded exactly once, those of a leaf in the order its solver finds them, and a limit
`k` cuts the list off.  The first one is the *least* likely of the leaves' best explanations.  Missing from
C50: the order across leaves, see `C50_violated_order`. -/
theorem C50_states_partial (hT : TreeOK discOk discFits discP kind full n h) (hbin : Binary h) (hsort : Sorted h)
    (hn : 0 < n) (neglog : ℚ → RawCost K)
    (hlog : ∀ q, 0 < q → ∃ k : K, neglog q = ((k : WithTop K) : WithBot (WithTop K)))
    (priors : List (ℕ × DD L)) (hp : ∀ b ∈ priors, ∃ k, discOk k b.2) (e : Query)
    (he : QueryOK discFits kind n e) :
    (e ≠ [] → mass discP h e = 0 → ∀ k, kmpe neglog n full h priors e k = .error .unsatisfiable) ∧
    (e = [] ∨ mass discP h e ≠ 0 → ∃ h' ps ss out,
      conditional (discOps L) n full h priors e = .ok (h', ps) ∧
      List.Forall₂ (fun l s => Solves l.2 s ∧ l.2.solutions neglog = .ok s) h'.leaves ss ∧
      kmpe neglog n full h priors e 0 = .ok out ∧ out.Perm ss.flatten ∧ (∀ s ∈ ss, s.Sublist out) ∧
      (∀ x ∈ out.head?, ∀ s ∈ ss, ∀ y ∈ s.head?, x.2 ≤ y.2) ∧
      ∀ k, k ≠ 0 → kmpe neglog n full h priors e k = .ok (out.take k)) := by
  have hpt : ∀ i ∈ e, i.2.point = none := by
    intro i hi
    obtain ⟨l, hr, -⟩ := (he.2 i hi).2.1
    rw [hr]
    rfl
  constructor
  · intro hne hm k
    have := (C47_conditional_partial disc_laws hT hbin hsort priors hp he hne hpt).1 hm
    unfold kmpe
    rw [this]
    rfl
  · intro hcase
    obtain ⟨h', ps, hc, hT'⟩ : ∃ h' ps, conditional (discOps L) n full h priors e = .ok (h', ps) ∧
        TreeOK discOk discFits discP kind full n h' := by
      by_cases hne : e = []
      · subst hne
        exact ⟨h, priors, C47_empty disc_laws hT hsort priors hp, hT⟩
      · obtain ⟨h', ps, h1, h2, -⟩ := (C47_conditional_partial disc_laws hT hbin hsort priors hp he hne hpt).2
          (hcase.resolve_left hne)
        exact ⟨h', ps, h1, h2⟩
    obtain ⟨ss, h1, h2, h3⟩ := solutions_all hT' hn neglog hlog
    obtain ⟨out, o1, o2, o3, o4, o5⟩ := mergeSolvers_spec ss h3
    have hk : ∀ k, kmpe neglog n full h priors e k = mergeSolvers k ss := by
      intro k
      unfold kmpe kmpeOf
      rw [hc]
      simp only [bind, Except.bind, h1]
    exact ⟨h', ps, ss, out, hc, h2, by rw [hk, o1], o2, o3, o4, fun k hk0 => by rw [hk, o5 k hk0]⟩

/-- If only one leaf remains under the evidence and no two states of a variable are equally likely in it,
the explanations come in non-increasing order of likelihood.  `unlog` is the inverse of `neglog`. -/
theorem C50_single_partial (hT : TreeOK discOk discFits discP kind full n h) (hbin : Binary h) (hsort : Sorted h)
    (hn : 0 < n) (neglog : ℚ → RawCost K) (unlog : K → ℚ)
    (h0 : unlog 0 = 1) (hadd : ∀ a b, unlog (a + b) = unlog a * unlog b)
    (hanti : ∀ a b, a ≤ b → unlog b ≤ unlog a)
    (hlog : ∀ q, 0 < q → ∃ k : K, neglog q = ((k : WithTop K) : WithBot (WithTop K)) ∧ unlog k = q)
    (priors : List (ℕ × DD L)) (hp : ∀ b ∈ priors, ∃ k, discOk k b.2) (e : Query)
    (he : QueryOK discFits kind n e) (h' : Heap (DD L)) (ps : List (ℕ × DD L)) (l : ℕ × Leaf (DD L))
    (hc : conditional (discOps L) n full h priors e = .ok (h', ps)) (hl : h'.leaves = [l])
    (hone : ∀ x ∈ l.2.byVar, ∀ q ∈ x.2.params, q ≠ 0 → x.2.params.count q = 1) :
    ∃ out, kmpe neglog n full h priors e 0 = .ok out ∧ Solves l.2 out ∧
      out.Pairwise (fun x y => y.2 ≤ x.2) := by
  obtain ⟨-, h2⟩ := C50_states_partial hT hbin hsort hn neglog
    (fun q hq => by obtain ⟨k, hk, -⟩ := hlog q hq; exact ⟨k, hk⟩) priors hp e he
  obtain ⟨hT', hcase⟩ := cond_ok hT hbin hsort hp he hc
  have hlm : l ∈ h'.leaves := by rw [hl]; exact List.mem_singleton.2 rfl
  have hd : l.2.dists.length = n ∧ ∀ x ∈ l.2.byVar, x.2.Proper :=
    ⟨(hT'.dists l hlm).1, fun x hx => byVar_ok hT' hlm hx⟩
  obtain ⟨h'', ps', ss, out, g1, g2, g3, g4, g5, -⟩ := h2 hcase
  rw [hc] at g1
  cases g1
  rw [hl] at g2
  cases g2 with
  | cons g6 g7 =>
    cases g7
    rename_i s
    have hout : s = out := (g5 s List.mem_cons_self).eq_of_length (by
      have := g4.length_eq
      simp at this
      exact this.symm)
    subst hout
    refine ⟨s, g3, g6.1, ?_⟩
    have hv : (l.2.byVar.map Prod.fst).Nodup := by rw [byVar_fst]; exact List.nodup_range
    have hne : l.2.byVar ≠ [] := by
      intro hcn
      have := byVar_fst l.2
      rw [hcn, hd.1] at this
      have := congrArg List.length this
      simp at this
      omega
    obtain ⟨s', k1, k2⟩ := Mpe.C49_discrete_partial neglog unlog h0 hadd hanti l.2.byVar hne hv
      (fun x hx => proper_pos (hd.2 x hx)) hone (by
        intro x hx q hq hq0
        exact hlog q (lt_of_le_of_ne ((hd.2 x hx).2.2.1 q hq) (Ne.symm hq0)))
    have h7 := g6.2
    unfold Leaf.solutions at h7
    rw [show l.2.dists.zipIdx.map (fun d => (d.2, d.1.2)) = l.2.byVar from rfl, k1] at h7
    cases h7
    exact k2

end

instance : DecidableEq (List MState) := inferInstance

/-- Costs with exact logarithms: the positive rationals, added by multiplication, in reverse order. -/
abbrev LogQ := Additive ({q : ℚ // 0 < q}ᵒᵈ)

/-- `-log`. -/
def exNeglog (q : ℚ) : RawCost LogQ :=
  if hq : 0 < q then (((Additive.ofMul (OrderDual.toDual ⟨q, hq⟩) : LogQ) : WithTop LogQ) : RawCost LogQ)
  else ((⊤ : WithTop LogQ) : RawCost LogQ)

/-- Its inverse. -/
def exUnlog (k : LogQ) : ℚ := (OrderDual.ofDual k.toMul).1

theorem exNeglog_pos (q : ℚ) (hq : 0 < q) :
    ∃ k : LogQ, exNeglog q = ((k : WithTop LogQ) : WithBot (WithTop LogQ)) ∧ exUnlog k = q :=
  ⟨Additive.ofMul (OrderDual.toDual ⟨q, hq⟩), by rw [exNeglog, dif_pos hq], rfl⟩

/-- C50 is violated with two leaves: the heap of candidates is ordered by likelihood and gives out the
smallest first, so that an explanation of likelihood 1/3 comes before one of 2/3. -/
theorem C50_violated_order : ∃ h, exLearn exA = .ok h ∧
    kmpe exNeglog 2 (fullOf (exA.cfg 6)) h [] [] 0 = .ok
      [([(0, [0]), (1, [0])], 2 / 3), ([(0, [0]), (1, [1])], 1 / 3),
       ([(0, [1]), (1, [2])], 2 / 3), ([(0, [1]), (1, [1])], 1 / 3)] := exists_ok (by decide +kernel)

/-- C50 is violated also because the likelihoods ignore the priors of the leaves: of the six rows two are
`(0, 0)`, and the tree itself gives the state probability 1/3, but it is reported with likelihood 2/3. -/
theorem C50_violated_prior : ∃ h, exLearn exA = .ok h ∧
    kmpe exNeglog 2 (fullOf (exA.cfg 6)) h [] [] 1 = .ok [([(0, [0]), (1, [0])], 2 / 3)] ∧
    infer (discOps ℤ) 2 (fullOf (exA.cfg 6)) h [(0, .set [0]), (1, .set [0])] [] = .ok (some (1 / 3)) :=
  exists_ok (by decide +kernel)

/-- The hypotheses of `C50_states_partial` hold. -/
example : ∃ h, exLearn exA = .ok h ∧ ∃ out, kmpe exNeglog 2 (fullOf (exA.cfg 6)) h [] [] 0 = .ok out ∧
    ∀ k, k ≠ 0 → kmpe exNeglog 2 (fullOf (exA.cfg 6)) h [] [] k = .ok (out.take k) := by
  obtain ⟨h, h1, -⟩ : ∃ h, exLearn exA = .ok h ∧ h.leaves.length = 2 := exists_ok (by decide +kernel)
  obtain ⟨hb, hs⟩ := learned_binary exA_data h1
  obtain ⟨-, h2⟩ := C50_states_partial (learned_ok exA_kind exA_data h1) hb hs (by decide) exNeglog
    (fun q hq => by obtain ⟨k, hk, -⟩ := exNeglog_pos q hq; exact ⟨k, hk⟩) [] (by simp) [] ⟨by simp, by simp⟩
  obtain ⟨_, _, _, out, -, -, h3, -, -, -, h4⟩ := h2 (.inl rfl)
  exact ⟨h, h1, out, h3, h4⟩

/-- The hypotheses of `C50_single_partial` hold. -/
example : ∃ h, exLearn exA = .ok h ∧ ∃ out,
    kmpe exNeglog 2 (fullOf (exA.cfg 6)) h [] [(0, .set [1])] 0 = .ok out ∧
    out.Pairwise (fun x y => y.2 ≤ x.2) := by
  obtain ⟨h, h1, h2⟩ : ∃ h, exLearn exA = .ok h ∧
      okAnd (conditional (discOps ℤ) 2 (fullOf (exA.cfg 6)) h [] [(0, .set [1])]) (fun x =>
        x.1.leaves.length == 1 && x.1.leaves.all (fun l => l.2.dists.length == 2 && l.2.byVar.all (fun d =>
          d.2.params.all (fun q => q == 0 || d.2.params.count q == 1)))) = true :=
    exists_ok (by decide +kernel)
  obtain ⟨hb, hs⟩ := learned_binary exA_data h1
  have hT := learned_ok exA_kind exA_data h1
  have he : QueryOK discFits exKind 2 [(0, .set [1])] := queryCheck_ok (by decide)
  obtain ⟨⟨h', ps⟩, h3, h4⟩ := okAnd_true h2
  rw [Bool.and_eq_true] at h4
  obtain ⟨h5, h6⟩ := h4
  have h5 : h'.leaves.length = 1 := by simpa using h5
  obtain ⟨l, hl⟩ := List.length_eq_one_iff.1 h5
  have hlm : l ∈ h'.leaves := by rw [hl]; exact List.mem_singleton.2 rfl
  obtain ⟨out, h7, -, h8⟩ := C50_single_partial hT hb hs (by decide) exNeglog exUnlog rfl (fun _ _ => rfl)
    (fun _ _ hab => hab) exNeglog_pos [] (by simp) _ he h' ps l h3 hl (by
      intro x hx q hq hq0
      have h9 := List.all_eq_true.1 h6 l hlm
      rw [Bool.and_eq_true] at h9
      have h10 := List.all_eq_true.1 (List.all_eq_true.1 h9.2 x hx) q hq
      simpa [hq0] using h10)
  exact ⟨h, h1, out, h7, h8⟩

/-- With evidence that leaves one leaf the order is right. -/
example : ∃ h, exLearn exA = .ok h ∧
    kmpe exNeglog 2 (fullOf (exA.cfg 6)) h [] [(0, .set [1])] 0 = .ok
      [([(0, [1]), (1, [2])], 2 / 3), ([(0, [1]), (1, [1])], 1 / 3)] := exists_ok (by decide +kernel)

end Verif.Trees
