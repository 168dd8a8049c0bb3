import Verif.Mpe.Lemmas3
import Mathlib.Algebra.Order.BigOperators.Ring.List
import Mathlib.Algebra.Field.Power
import Mathlib.Algebra.Order.Field.Power

/-!
# The k-MPE solver: C49

`Complete`, `Allowed` and `Problem` are defined in `Verif.Mpe.Spec`.
-/

namespace Verif.Mpe

open Verif.HQ

variable {V A K : Type} [LinearOrder K] [AddCommGroup K] [DecidableEq V] [Inhabited V]

/-- C49: the solver yields complete assignments with their total costs, it yields every choice of
possible values exactly once, and the costs never decrease. -/
theorem C49_solve [IsOrderedAddMonoid K] (vals : List (V × List (A × RawCost K)))
    (h : Problem vals) :
    ∃ s out, mkSolver vals = .ok s ∧ s.solve 0 = .ok out ∧
      (∀ x ∈ out, Complete vals x.state x.cost) ∧
      (∀ f : V → A, (∀ v ∈ vals, ∃ k : K, Allowed vals v.1 (f v.1) k) →
        ∃! i : ℕ, ∃ x, out[i]? = some x ∧ ∀ p ∈ x.state, p.2 = f p.1) ∧
      out.Pairwise (fun x y => x.cost ≤ y.cost) := by
  obtain ⟨s, h1, h2, h3⟩ := mkSolver_ok vals h
  have hne : s.vars ≠ [] := by
    rw [h2]
    intro he
    have := (constraints_names vals).length_eq
    rw [he] at this
    exact h.nonempty (List.length_eq_zero_iff.1 (by simpa using this.symm))
  obtain ⟨out, g1, g2, g3⟩ := solve_all s h3 hne
  rw [h2] at g2
  have hmem : ∀ x ∈ out, (x.state, x.cost) ∈ prods (constraints vals) :=
    fun x hx => g2.subset (List.mem_map_of_mem (f := Sol.pair) hx)
  have hnames : ∀ x ∈ out, x.state.map Prod.fst = (constraints vals).map Prod.fst := by
    intro x hx
    obtain ⟨ks, e, -⟩ := (mem_prods _ _ _).1 (hmem x hx)
    exact e
  refine ⟨s, out, h1, g1, fun x hx => prods_complete vals _ _ (hmem x hx), ?_, g3⟩
  intro f hf
  have hnd : ((out.map Sol.pair).map Prod.fst).Nodup := by
    refine (g2.map Prod.fst).nodup_iff.2 (prods_nodup _ ?_)
    intro c hc
    obtain ⟨v, hv, rfl⟩ := List.mem_map.1 ((constraints_perm vals).subset hc)
    exact mkConstraint_keys _ (h.values v hv)
  have hform : ∀ x ∈ out, (∀ p ∈ x.state, p.2 = f p.1) →
      x.state = (constraints vals).map (fun c => (c.1, f c.1)) := by
    intro x hx hp
    have e1 : x.state = (x.state.map Prod.fst).map (fun v => (v, f v)) := by
      rw [List.map_map]
      conv_lhs => rw [← List.map_id x.state]
      apply List.map_congr_left
      intro p hpm
      simp only [id, Function.comp, ← hp p hpm]
    rw [e1, hnames x hx, List.map_map]
    rfl
  obtain ⟨k, hk⟩ := prods_choice vals h.vars f hf
  obtain ⟨x, hx, hxe⟩ := List.mem_map.1 (g2.symm.subset hk)
  obtain ⟨i, hi, hix⟩ := List.getElem_of_mem hx
  refine ⟨i, ⟨x, by rw [← hix]; simp [hi], ?_⟩, ?_⟩
  · have : x.state = (constraints vals).map (fun c => (c.1, f c.1)) := congrArg Prod.fst hxe
    rw [this]
    intro p hp
    obtain ⟨c, -, rfl⟩ := List.mem_map.1 hp
    rfl
  · rintro j ⟨y, hy, hyp⟩
    have hym := List.mem_of_getElem? hy
    have e : y.state = x.state := by
      rw [hform y hym hyp]
      exact (congrArg Prod.fst hxe).symm
    have hj := (List.getElem?_eq_some_iff.1 hy).1
    have hjx := (List.getElem?_eq_some_iff.1 hy).2
    refine (List.Nodup.getElem_inj_iff hnd (hi := by simpa using hj) (hj := by simpa using hi)).1 ?_
    simp only [List.getElem_map, hjx, hix, Sol.pair, e]

/-- C49: `solve(k)` stops after the `k` best solutions. -/
theorem C49_solve_k [IsOrderedAddMonoid K] (vals : List (V × List (A × RawCost K)))
    (h : Problem vals) (k : ℕ) (hk : 0 < k) :
    ∃ s out, mkSolver vals = .ok s ∧ s.solve 0 = .ok out ∧ s.solve k = .ok (out.take k) := by
  obtain ⟨s, out, h1, h2, -⟩ := C49_solve vals h
  exact ⟨s, out, h1, h2, solve_k s k out h2 hk⟩

/-- Two variables, one with an impossible value and two equally good ones. -/
def exVals : List (String × List (String × RawCost ℤ)) :=
  [("a", [("u", ((3 : ℤ) : WithTop ℤ)), ("v", ((1 : ℤ) : WithTop ℤ)), ("w", ((1 : ℤ) : WithTop ℤ))]),
   ("b", [("x", ((2 : ℤ) : WithTop ℤ)), ("y", ((⊤ : WithTop ℤ) : RawCost ℤ)), ("z", ((1 : ℤ) : WithTop ℤ))])]

example : Problem exVals := by
  refine ⟨by decide, by decide, by decide, ?_, ?_⟩
  · intro v hv
    simp only [exVals, List.mem_cons, List.not_mem_nil, or_false] at hv
    rcases hv with rfl | rfl
    · exact ⟨_, List.mem_cons_self, by decide⟩
    · exact ⟨_, List.mem_cons_self, by decide⟩
  · intro v hv
    left
    simp only [exVals, List.mem_cons, List.not_mem_nil, or_false] at hv
    rcases hv with rfl | rfl <;> decide

example : (do return (← (← mkSolver exVals).solve 0).map fun x => (x.state, x.cost)) =
    Except.ok (ε := Err) [([("b", "z"), ("a", "v")], 2), ([("b", "z"), ("a", "w")], 2),
      ([("b", "x"), ("a", "v")], 3), ([("b", "x"), ("a", "w")], 3),
      ([("b", "z"), ("a", "u")], 4), ([("b", "x"), ("a", "u")], 5)] := by decide +kernel

omit [DecidableEq V] [Inhabited V] in
/-- C49: a variable without possible values makes the constructor raise a `ValueError`. -/
theorem C49_impossible (vals : List (V × List (A × RawCost K))) (v : V × List (A × RawCost K))
    (hv : v ∈ vals) (h : ∀ x ∈ v.2, x.2 = ((⊤ : WithTop K) : WithBot (WithTop K))) :
    mkSolver vals = .error .valueError := by
  have hnil : mkConstraint v.2 = [] := by
    rw [List.eq_nil_iff_forall_not_mem]
    rintro ⟨a, k⟩ hx
    obtain ⟨c, hc, hk⟩ := (mem_mkConstraint _ _ _).1 hx
    have := h _ hc
    simp only at this
    subst this
    rcases hk with hk | ⟨hk, -⟩
    · exact absurd (WithBot.coe_injective hk) (by simp)
    · cases hk
  have hmem : (v.1, mkConstraint v.2) ∈ (constraints vals).reverse :=
    List.mem_reverse.2 ((constraints_perm vals).symm.subset (List.mem_map_of_mem (f := fun v => (v.1, mkConstraint v.2)) hv))
  have herr : (constraints vals).reverse.mapM minCost = .error .valueError := by
    generalize (constraints vals).reverse = l at hmem
    induction l with
    | nil => simp at hmem
    | cons c l ih =>
      rw [List.mapM_cons]
      cases hc : minCost c with
      | error e =>
        have : e = .valueError := by
          unfold minCost at hc
          split at hc <;> cases hc; rfl
        subst this; rfl
      | ok x =>
        rcases List.mem_cons.1 hmem with e | hm
        · rw [← e, minCost_error _ hnil] at hc
          cases hc
        · simp only [bind, Except.bind, ih hm]
  show (do let ms ← (constraints vals).reverse.mapM minCost; _) = _
  rw [herr]; rfl

example : mkSolver [("a", [("u", ((3 : ℤ) : WithTop ℤ))]), ("b", [("x", ((⊤ : WithTop ℤ) : RawCost ℤ))])]
    = .error .valueError :=
  C49_impossible _ _ (List.mem_cons_of_mem _ List.mem_cons_self) (by simp)

/-- C49: without variables, the search fails with an `AttributeError`. -/
theorem C49_no_variables (k : ℕ) :
    (do (← mkSolver (V := V) (A := A) (K := K) []).solve k) = .error .attributeError := rfl

/-! ## Likelihoods -/

/-- C49, partial: where the likelihood reported for each value is a fixed decreasing function of its
cost, turning sums into products, the likelihoods reported never increase.  For symbolic and integer
variables this is so if no two states of a variable are equally likely (see `C49_discrete_partial`);
otherwise it is not (see `C49_violated_order`). -/
theorem C49_likelihood_partial [IsOrderedAddMonoid K] (vals : List (V × List (A × RawCost K)))
    (h : Problem vals) (lik : V → A → ℚ) (L : K → ℚ) (h0 : L 0 = 1) (hadd : ∀ a b, L (a + b) = L a * L b)
    (hanti : ∀ a b, a ≤ b → L b ≤ L a) (hlik : ∀ v a k, Allowed vals v a k → lik v a = L k) :
    ∃ s out, mkSolver vals = .ok s ∧ s.solve 0 = .ok out ∧
      (∀ x ∈ out, likelihood lik x.state = L x.cost) ∧
      out.Pairwise (fun x y => likelihood lik y.state ≤ likelihood lik x.state) := by
  obtain ⟨s, out, h1, h2, h3, -, h5⟩ := C49_solve vals h
  have hL : ∀ x ∈ out, likelihood lik x.state = L x.cost := by
    intro x hx
    obtain ⟨-, ks, hks, hc⟩ := h3 x hx
    rw [hc]
    unfold likelihood
    clear hc
    generalize x.state = st at hks
    induction hks with
    | nil => simp [h0]
    | cons hp _ ih =>
      rw [List.map_cons, List.prod_cons, List.sum_cons, hadd, ih, hlik _ _ _ hp]
  refine ⟨s, out, h1, h2, hL, ?_⟩
  refine (List.Pairwise.and_mem.1 h5).imp ?_
  rintro x y ⟨hx, hy, hle⟩
  rw [hL x hx, hL y hy]
  exact hanti _ _ hle

/-- Powers of two meet the hypotheses. -/
example : (2 : ℚ) ^ (-(0 : ℤ)) = 1 ∧
    (∀ a b : ℤ, (2 : ℚ) ^ (-(a + b)) = 2 ^ (-a) * 2 ^ (-b)) ∧
    ∀ a b : ℤ, a ≤ b → (2 : ℚ) ^ (-b) ≤ 2 ^ (-a) := by
  refine ⟨by simp, fun a b => ?_, fun a b h => ?_⟩
  · rw [neg_add, zpow_add₀ (by norm_num)]
  · exact zpow_le_zpow_right₀ (by norm_num) (by omega)

/-! ## Symbolic and integer variables -/

section Discrete

variable {L : Type} [DecidableEq L]

/-- C49 for symbolic and integer variables: for every choice of one of the probabilities occurring
in each variable's distribution, exactly one result is yielded.  It assigns each variable the set of
all states of that probability, and its likelihood is the product of the probabilities.  Nothing
else is yielded. -/
theorem C49_discrete [IsOrderedAddMonoid K] (neglog : ℚ → RawCost K) (dists : List (V × Disc.Dist L))
    (hne : dists ≠ []) (hv : (dists.map Prod.fst).Nodup)
    (hpos : ∀ x ∈ dists, ∃ q ∈ x.2.params, q ≠ 0)
    (hlog : ∀ x ∈ dists, ∀ q ∈ x.2.params, q ≠ 0 → ∃ k : K,
      neglog (x.2.params.count q * q) = ((k : WithTop K) : WithBot (WithTop K))) :
    ∃ out, solveDiscrete neglog 0 dists = .ok out ∧
      (∀ x ∈ out, ∃ f, Choice dists f ∧ Shows dists f x) ∧
      ∀ f, Choice dists f → ∃! i : ℕ, ∃ x, out[i]? = some x ∧ Shows dists f x := by
  have hP := problem_discrete neglog dists hne hv hpos hlog
  obtain ⟨s, out, h1, h2, h3, h4, -⟩ := C49_solve _ hP
  have hsolve : solveDiscrete neglog 0 dists
      = .ok (out.map fun x => (x.state, likelihood (domainOf dists) x.state)) := by
    unfold solveDiscrete
    rw [valsOf_ok]
    simp only [bind, Except.bind, h1, h2]
    rfl
  have hshow : ∀ x ∈ out, ∀ f, Choice dists f →
      (∀ p ∈ x.state, p.2 = groupOf dists p.1 (f p.1)) →
      Shows dists f (x.state, likelihood (domainOf dists) x.state) := by
    intro x hx f hf hp
    obtain ⟨hperm, -⟩ := h3 x hx
    rw [valsOf_names] at hperm
    exact shows_of dists hv f hf x.state hperm hp
  refine ⟨_, hsolve, ?_, ?_⟩
  · intro y hy
    obtain ⟨x, hx, rfl⟩ := List.mem_map.1 hy
    obtain ⟨f, hf, hp⟩ := choice_of neglog dists hv x.state x.cost (h3 x hx)
    exact ⟨f, hf, hshow x hx f hf hp⟩
  · intro f hf
    obtain ⟨i, ⟨x, hx, hxp⟩, hu⟩ := h4 (fun v => groupOf dists v (f v)) (by
      intro v hv'
      obtain ⟨w, hw, rfl⟩ := List.mem_map.1 hv'
      obtain ⟨k, hk⟩ := hlog w hw _ (hf w hw).1 (hf w hw).2
      exact ⟨k, allowed_of neglog dists hv f hf w hw k hk⟩)
    have hxm := List.mem_of_getElem? hx
    refine ⟨i, ⟨_, by rw [List.getElem?_map, hx]; rfl, hshow x hxm f hf hxp⟩, ?_⟩
    rintro j ⟨y, hy, hs⟩
    rw [List.getElem?_map] at hy
    cases hj : out[j]? with
    | none => rw [hj] at hy; cases hy
    | some z =>
      rw [hj] at hy
      cases hy
      refine hu j ⟨z, hj, ?_⟩
      exact groups_of_shows neglog dists hv f z.state z.cost (h3 z (List.mem_of_getElem? hj)) _ hs

/-- C49 for symbolic and integer variables, partial: if no two states of a variable are equally
likely, the likelihoods yielded never increase.  `unlog` is the inverse of `neglog`. -/
theorem C49_discrete_partial [IsOrderedAddMonoid K] (neglog : ℚ → RawCost K) (unlog : K → ℚ)
    (h0 : unlog 0 = 1) (hadd : ∀ a b, unlog (a + b) = unlog a * unlog b)
    (hanti : ∀ a b, a ≤ b → unlog b ≤ unlog a)
    (dists : List (V × Disc.Dist L)) (hne : dists ≠ []) (hv : (dists.map Prod.fst).Nodup)
    (hpos : ∀ x ∈ dists, ∃ q ∈ x.2.params, q ≠ 0)
    (hone : ∀ x ∈ dists, ∀ q ∈ x.2.params, q ≠ 0 → x.2.params.count q = 1)
    (hlog : ∀ x ∈ dists, ∀ q ∈ x.2.params, q ≠ 0 → ∃ k : K,
      neglog q = ((k : WithTop K) : WithBot (WithTop K)) ∧ unlog k = q) :
    ∃ out, solveDiscrete neglog 0 dists = .ok out ∧ out.Pairwise (fun x y => y.2 ≤ x.2) := by
  have hlog' : ∀ x ∈ dists, ∀ q ∈ x.2.params, q ≠ 0 → ∃ k : K,
      neglog (x.2.params.count q * q) = ((k : WithTop K) : WithBot (WithTop K)) := by
    intro x hx q hq hq0
    obtain ⟨k, hk, -⟩ := hlog x hx q hq hq0
    exact ⟨k, by rw [hone x hx q hq hq0, Nat.cast_one, one_mul, hk]⟩
  have hP := problem_discrete neglog dists hne hv hpos hlog'
  obtain ⟨s, out, h1, h2, h3, h4⟩ := C49_likelihood_partial _ hP (domainOf dists) unlog h0 hadd hanti (by
    intro v a k ha
    obtain ⟨d, q, hd, hq, hq0, rfl, hk⟩ := (allowed_iff neglog dists v a k).1 ha
    rw [domainOf_states dists hv v d hd q hq hq0]
    obtain ⟨k', hk', hu⟩ := hlog (v, d) hd q hq hq0
    rw [hone (v, d) hd q hq hq0, Nat.cast_one, one_mul, hk'] at hk
    rcases hk with hk | ⟨hk, -⟩
    · have : k' = k := WithTop.coe_injective (WithBot.coe_injective hk)
      rw [← this, hu]
    · cases hk)
  refine ⟨out.map fun x => (x.state, likelihood (domainOf dists) x.state), ?_, ?_⟩
  · unfold solveDiscrete
    rw [valsOf_ok]
    simp only [bind, Except.bind, h1, h2]
    rfl
  · rw [List.pairwise_map]
    exact h4

end Discrete

/-- The negative logarithm to base two of the powers of two. -/
def neglog2 (q : ℚ) : RawCost ℤ := (((Nat.log2 q.den : ℤ) : WithTop ℤ) : RawCost ℤ)

/-- One state of probability 1/4, two of 1/8, and eight of 1/16. -/
def exSkew : Disc.Dist ℕ :=
  ⟨⟨"S", List.range 11⟩, [1/4, 1/8, 1/8, 1/16, 1/16, 1/16, 1/16, 1/16, 1/16, 1/16, 1/16]⟩

/-- A distribution with states of different probabilities. -/
def exClear : Disc.Dist ℕ := ⟨⟨"C", List.range 4⟩, [1/8, 1/2, 0, 1/4]⟩

example : solveDiscrete neglog2 0 [("a", exClear), ("b", exClear)] = .ok
    [([("a", [1]), ("b", [1])], 1/4), ([("a", [1]), ("b", [3])], 1/8), ([("a", [3]), ("b", [1])], 1/8),
     ([("a", [1]), ("b", [0])], 1/16), ([("a", [3]), ("b", [3])], 1/16), ([("a", [0]), ("b", [1])], 1/16),
     ([("a", [3]), ("b", [0])], 1/32), ([("a", [0]), ("b", [3])], 1/32), ([("a", [0]), ("b", [0])], 1/64)] := by
  decide +kernel

/-- C49 is violated where states are equally likely: the eight states of probability 1/16 are yielded
before the state of probability 1/4.  The costs are the logarithms of the probabilities of the whole
sets of states, the likelihoods those of a single state. -/
theorem C49_violated_order :
    solveDiscrete neglog2 0 [("a", exSkew)] = .ok
      [([("a", [3, 4, 5, 6, 7, 8, 9, 10])], 1/16), ([("a", [0])], 1/4), ([("a", [1, 2])], 1/8)] := by
  decide +kernel

end Verif.Mpe
