import Verif.Mpe.Lemmas
import Verif.Mpe.Spec

/-! # Lemmas on the construction of the k-MPE solver and on `k` -/

set_option linter.unusedSectionVars false

namespace Verif.Mpe

open Verif.HQ

variable {V A K : Type} [LinearOrder K] [AddCommGroup K]

/-! ## Constraints -/

theorem mem_mkConstraint (vals : List (A × RawCost K)) (a : A) (k : K) :
    (a, k) ∈ mkConstraint vals ↔ ∃ c, (a, c) ∈ vals ∧ Counts c k := by
  unfold mkConstraint
  rw [List.mem_filterMap]
  constructor
  · rintro ⟨⟨b, c⟩, hx, hc⟩
    have hx' := (List.perm_insertionSort _ vals).subset hx
    cases c with
    | none =>
      cases hc
      exact ⟨_, hx', Or.inr ⟨rfl, rfl⟩⟩
    | some c =>
      cases c with
      | top => cases hc
      | coe c => cases hc; exact ⟨_, hx', Or.inl rfl⟩
  · rintro ⟨c, hx, hc⟩
    refine ⟨(a, c), (List.perm_insertionSort _ vals).symm.subset hx, ?_⟩
    rcases hc with rfl | ⟨rfl, rfl⟩ <;> rfl

theorem mkConstraint_keys (vals : List (A × RawCost K)) (h : (vals.map Prod.fst).Nodup) :
    ((mkConstraint vals).map Prod.fst).Nodup := by
  have h1 : ((vals.insertionSort (fun x y => x.2 ≤ y.2)).map Prod.fst).Nodup :=
    ((List.perm_insertionSort _ vals).map _).nodup_iff.2 h
  unfold mkConstraint
  refine List.Nodup.sublist ?_ h1
  generalize vals.insertionSort (fun x y => x.2 ≤ y.2) = l
  induction l with
  | nil => exact List.Sublist.refl _
  | cons x l ih =>
    obtain ⟨a, c⟩ := x
    cases c with
    | none => exact List.Sublist.cons_cons _ ih
    | some c =>
      cases c with
      | top => exact List.Sublist.cons _ ih
      | coe c => exact List.Sublist.cons_cons _ ih

/-- The values of a variable: all of infinite likelihood first, then by cost.  The costs are sorted
if no likelihood is infinite, or no cost negative. -/
theorem mkConstraint_sorted (vals : List (A × RawCost K))
    (h : (∀ x ∈ vals, x.2 ≠ ⊥) ∨ ∀ x ∈ vals, ∀ k : K, Counts x.2 k → 0 ≤ k) :
    (mkConstraint vals).Pairwise (fun x y => x.2 ≤ y.2) := by
  have h1 : (vals.insertionSort (fun x y => x.2 ≤ y.2)).Pairwise (fun x y => x.2 ≤ y.2) := by
    apply List.pairwise_insertionSort
  have h2 : (∀ x ∈ vals.insertionSort (fun x y => x.2 ≤ y.2), x.2 ≠ ⊥) ∨
      ∀ x ∈ vals.insertionSort (fun x y => x.2 ≤ y.2), ∀ k : K, Counts x.2 k → 0 ≤ k := by
    rcases h with h | h
    · exact Or.inl fun x hx => h x ((List.perm_insertionSort _ vals).subset hx)
    · exact Or.inr fun x hx => h x ((List.perm_insertionSort _ vals).subset hx)
  unfold mkConstraint
  rw [List.pairwise_filterMap]
  refine (List.Pairwise.and_mem.1 h1).imp ?_
  rintro ⟨a, c⟩ ⟨b, d⟩ ⟨hx, hy, hle⟩ p hp q hq
  simp only at hle hp hq
  cases c with
  | none =>
    cases hp
    cases d with
    | none => cases hq; exact le_refl _
    | some d =>
      cases d with
      | top => cases hq
      | coe d =>
        cases hq
        rcases h2 with h2 | h2
        · exact absurd rfl (h2 _ hx)
        · exact h2 _ hy d (Or.inl rfl)
  | some c =>
    cases c with
    | top => cases hp
    | coe c =>
      cases hp
      cases d with
      | none => exact absurd hle (not_le.2 (WithBot.bot_lt_coe _))
      | some d =>
        cases d with
        | top => cases hq
        | coe d =>
          cases hq
          exact WithTop.coe_le_coe.1 (WithBot.coe_le_coe.1 hle)

/-! ## Construction -/

theorem minCost_ok (c : Constr V A K) (h : Good c) :
    minCost c = .ok (match c.2 with | [] => 0 | x :: _ => x.2) := by
  obtain ⟨v, vals⟩ := c
  obtain ⟨h1, h2⟩ := h
  cases vals with
  | nil => exact absurd rfl h1
  | cons x l =>
    have : ((x :: l).map Prod.snd).min? = some x.2 := by
      rw [List.min?_eq_some_iff]
      refine ⟨by simp, ?_⟩
      intro b hb
      rw [List.map_cons, List.mem_cons] at hb
      rcases hb with rfl | hb
      · exact le_refl _
      · obtain ⟨y, hy, rfl⟩ := List.mem_map.1 hb
        exact (List.pairwise_cons.1 h2).1 y hy
    simp only [minCost, this]

theorem minCost_error (c : Constr V A K) (h : c.2 = []) : minCost c = .error .valueError := by
  simp [minCost, h]

/-- The first cost. -/
def firstCost (c : Constr V A K) : K := match c.2 with | [] => 0 | x :: _ => x.2

theorem best_eq_sum (cs : List (Constr V A K)) : best cs = (cs.map firstCost).sum := by
  induction cs with
  | nil => rfl
  | cons c cs ih => simp only [best, List.map_cons, List.sum_cons, ih]; rfl

theorem cumsum_length (a : K) (l : List K) : (cumsum a l).length = l.length := by
  induction l generalizing a with
  | nil => rfl
  | cons x l ih => simp [cumsum, ih]

theorem cumsum_get (a : K) (l : List K) (i : ℕ) (h : i < l.length) :
    (cumsum a l)[i]? = some (a + (l.take (i + 1)).sum) := by
  induction l generalizing a i with
  | nil => simp at h
  | cons x l ih =>
    cases i with
    | zero => simp [cumsum]
    | succ i =>
      rw [List.length_cons] at h
      simp only [cumsum, List.getElem?_cons_succ, List.take_succ_cons, List.sum_cons]
      rw [ih _ _ (by omega), add_assoc]

/-- The local lower bounds are the sums of the costs behind the variable. -/
theorem lb_get (cs : List (Constr V A K)) (d : ℕ) (h : d < cs.length) :
    ((cumsum 0 (cs.reverse.map firstCost)).dropLast.reverse ++ [0])[d]? = some (best (cs.drop (d + 1))) := by
  have hlen : ((cumsum 0 (cs.reverse.map firstCost)).dropLast.reverse).length = cs.length - 1 := by
    rw [List.length_reverse, List.length_dropLast, cumsum_length]; simp
  by_cases hd : d = cs.length - 1
  · rw [List.getElem?_append_right (by omega), hlen, hd]
    have : cs.length - 1 + 1 = cs.length := by omega
    rw [this]; simp [best]
  · rw [List.getElem?_append_left (by omega)]
    rw [List.getElem?_reverse (by rw [List.length_reverse] at hlen; omega)]
    rw [List.length_reverse] at hlen
    rw [hlen, List.getElem?_dropLast, cumsum_length, List.length_map, List.length_reverse]
    rw [if_pos (by omega), cumsum_get _ _ _ (by simp; omega), zero_add, best_eq_sum]
    congr 1
    have e : cs.length - 1 - 1 - d + 1 = cs.length - (d + 1) := by omega
    rw [e, ← List.map_take, List.take_reverse, List.map_reverse, List.sum_reverse]
    congr 3
    omega

theorem lookup_zip [DecidableEq V] {B : Type} (ks : List V) (l : List B) (hn : ks.Nodup) (d : ℕ) (v : V)
    (b : B) (hk : ks[d]? = some v) (hl : l[d]? = some b) : (ks.zip l).lookup v = some b := by
  induction ks generalizing l d with
  | nil => simp at hk
  | cons k ks ih =>
    cases l with
    | nil => simp at hl
    | cons x l =>
      rw [List.nodup_cons] at hn
      rw [List.zip_cons_cons, List.lookup_cons]
      cases d with
      | zero =>
        simp at hk hl
        subst hk hl
        simp
      | succ d =>
        simp only [List.getElem?_cons_succ] at hk hl
        have : v ≠ k := fun e => hn.1 (e ▸ List.mem_of_getElem? hk)
        have hb : (v == k) = false := by simpa using this
        rw [hb]
        exact ih l hn.2 d hk hl

/-- The constraints in variable order. -/
def constraints (vals : List (V × List (A × RawCost K))) : List (Constr V A K) :=
  order (vals.map fun v => (v.1, mkConstraint v.2))

theorem constraints_perm (vals : List (V × List (A × RawCost K))) :
    (constraints vals).Perm (vals.map fun v => (v.1, mkConstraint v.2)) :=
  List.perm_insertionSort _ _

theorem constraints_names (vals : List (V × List (A × RawCost K))) :
    ((constraints vals).map Prod.fst).Perm (vals.map Prod.fst) := by
  have := (constraints_perm vals).map Prod.fst
  rw [List.map_map] at this
  exact this

theorem constraints_good (vals : List (V × List (A × RawCost K))) (h : Problem vals) :
    ∀ c ∈ constraints vals, Good c := by
  intro c hc
  obtain ⟨v, hv, rfl⟩ := List.mem_map.1 ((constraints_perm vals).subset hc)
  refine ⟨?_, mkConstraint_sorted _ (h.costs v hv)⟩
  obtain ⟨⟨a, c⟩, hx, hne⟩ := h.possible v hv
  intro he
  have hno : ∀ k, (a, k) ∉ mkConstraint v.2 := by
    intro k; show (a, k) ∉ mkConstraint v.2
    have : mkConstraint v.2 = [] := he
    rw [this]; simp
  cases c with
  | bot => exact hno 0 ((mem_mkConstraint _ _ _).2 ⟨_, hx, Or.inr ⟨rfl, rfl⟩⟩)
  | coe c =>
    cases c with
    | top => exact hne rfl
    | coe c => exact hno c ((mem_mkConstraint _ _ _).2 ⟨_, hx, Or.inl rfl⟩)

theorem mkSolver_ok [DecidableEq V] (vals : List (V × List (A × RawCost K))) (h : Problem vals) :
    ∃ s, mkSolver vals = .ok s ∧ s.vars = constraints vals ∧ WF s := by
  have hg := constraints_good vals h
  have hm : (constraints vals).reverse.mapM minCost
      = .ok ((constraints vals).reverse.map firstCost) := by
    rw [mapM_ok_iff, List.forall₂_map_right_iff, List.forall₂_same]
    intro c hc
    exact minCost_ok c (hg c (List.mem_reverse.1 hc))
  have hn : ((constraints vals).map Prod.fst).Nodup := (constraints_names vals).nodup_iff.2 h.vars
  refine ⟨⟨constraints vals, ((constraints vals).map Prod.fst).zip
      ((cumsum 0 ((constraints vals).reverse.map firstCost)).dropLast.reverse ++ [0])⟩, ?_, rfl, ⟨hn, hg, ?_⟩⟩
  · show (do let ms ← (constraints vals).reverse.mapM minCost; _) = _
    rw [hm]; rfl
  · intro d c hd
    have hlt := (List.getElem?_eq_some_iff.1 hd).1
    rw [lookup_zip _ _ hn d c.1 _ (by rw [List.getElem?_map, hd]; rfl) (lb_get _ d hlt)]
    rfl

/-! ## The product -/

theorem mem_prods (cs : List (Constr V A K)) (st : Assign V A) (k : K) :
    (st, k) ∈ prods cs ↔ ∃ ks : List K, st.map Prod.fst = cs.map Prod.fst ∧ k = ks.sum ∧ ks.length = cs.length ∧
      ∀ (i : ℕ) c p x, cs[i]? = some c → st[i]? = some p → ks[i]? = some x → (p.2, x) ∈ c.2 := by
  induction cs generalizing st k with
  | nil =>
    simp only [prods, List.mem_singleton, Prod.mk.injEq]
    constructor
    · rintro ⟨rfl, rfl⟩
      exact ⟨[], by simp⟩
    · rintro ⟨ks, h1, h2, h3, -⟩
      have : ks = [] := List.length_eq_zero_iff.1 h3
      subst this
      exact ⟨by simpa using h1, by simpa using h2⟩
  | cons c cs ih =>
    simp only [prods, List.mem_flatMap, List.mem_map, Prod.mk.injEq]
    constructor
    · rintro ⟨⟨a, x⟩, hx, ⟨t, ct⟩, ht, rfl, rfl⟩
      obtain ⟨ks, h1, h2, h3, h4⟩ := (ih t ct).1 ht
      refine ⟨x :: ks, by simp [h1], by simp [h2], by simp [h3], ?_⟩
      intro i c' p y hc hp hy
      cases i with
      | zero => simp at hc hp hy; subst hc hp hy; exact hx
      | succ i => exact h4 i c' p y (by simpa using hc) (by simpa using hp) (by simpa using hy)
    · rintro ⟨ks, h1, h2, h3, h4⟩
      cases st with
      | nil => simp at h1
      | cons p st =>
        cases ks with
        | nil => simp at h3
        | cons x ks =>
          simp only [List.map_cons, List.cons.injEq] at h1
          refine ⟨(p.2, x), h4 0 c p x (by simp) (by simp) (by simp), (st, ks.sum), ?_, ?_, ?_⟩
          · refine (ih st ks.sum).2 ⟨ks, h1.2, rfl, by simpa using h3, ?_⟩
            intro i c' q y hc hq hy
            exact h4 (i + 1) c' q y (by simpa using hc) (by simpa using hq) (by simpa using hy)
          · simp [← h1.1]
          · simp [h2]

theorem prods_nodup (cs : List (Constr V A K)) (h : ∀ c ∈ cs, (c.2.map Prod.fst).Nodup) :
    ((prods cs).map Prod.fst).Nodup := by
  induction cs with
  | nil => simp [prods]
  | cons c cs ih =>
    have h1 := ih fun d hd => h d (List.mem_cons_of_mem _ hd)
    have h2 := h c List.mem_cons_self
    simp only [prods, List.map_flatMap, List.map_map]
    rw [List.nodup_flatMap]
    constructor
    · intro x _
      have : (Prod.fst ∘ fun t : Assign V A × K => ((c.1, x.1) :: t.1, x.2 + t.2))
          = (fun a : Assign V A => (c.1, x.1) :: a) ∘ Prod.fst := rfl
      rw [this, ← List.map_map]
      exact h1.map fun a b hab => (List.cons.inj hab).2
    · have h3 : c.2.Pairwise (fun x y => x.1 ≠ y.1) := List.pairwise_map.1 h2
      refine h3.imp ?_
      intro x y hxy
      simp only [Function.onFun, List.disjoint_left, List.mem_map, Function.comp]
      rintro z ⟨t, -, rfl⟩ ⟨u, -, hu⟩
      simp only [List.cons.injEq, Prod.mk.injEq] at hu
      exact hxy hu.1.2.symm

theorem prods_complete (vals : List (V × List (A × RawCost K))) (st : Assign V A) (k : K)
    (h : (st, k) ∈ prods (constraints vals)) : Complete vals st k := by
  obtain ⟨ks, h1, h2, h3, h4⟩ := (mem_prods _ _ _).1 h
  refine ⟨h1 ▸ constraints_names vals, ks, ?_, h2⟩
  have hlen : st.length = (constraints vals).length := by
    have := congrArg List.length h1; simpa using this
  rw [List.forall₂_iff_get]
  refine ⟨by omega, ?_⟩
  intro i hi hi'
  have hi'' : i < (constraints vals).length := by omega
  have := h4 i ((constraints vals)[i]) st[i] ks[i] (by simp [hi'']) (by simp [hi]) (by simp [hi'])
  obtain ⟨v, hv, he⟩ := List.mem_map.1 ((constraints_perm vals).subset (List.getElem_mem hi''))
  have hname : st[i].1 = (constraints vals)[i].1 := by
    have := congrArg (fun l => l[i]?) h1
    simpa [hi, hi''] using this
  rw [← he] at this hname
  obtain ⟨c, hc, hk⟩ := (mem_mkConstraint _ _ _).1 this
  refine ⟨v.2, ?_, c, hc, hk⟩
  show (st[i].1, v.2) ∈ vals
  rw [hname]; exact hv

/-- The assignment belonging to a choice of values. -/
theorem prods_choice (vals : List (V × List (A × RawCost K))) (hn : (vals.map Prod.fst).Nodup) (f : V → A)
    (hf : ∀ v ∈ vals, ∃ k : K, Allowed vals v.1 (f v.1) k) :
    ∃ k : K, ((constraints vals).map (fun c => (c.1, f c.1)), k) ∈ prods (constraints vals) := by
  have hf' : ∀ c ∈ constraints vals, ∃ k : K, (f c.1, k) ∈ c.2 := by
    intro c hc
    obtain ⟨v, hv, rfl⟩ := List.mem_map.1 ((constraints_perm vals).subset hc)
    obtain ⟨k, vs, hvs, c, hc, hk⟩ := hf v hv
    have : vs = v.2 := by
      have := List.inj_on_of_nodup_map hn hvs hv rfl
      rw [← this]
    subst this
    exact ⟨k, (mem_mkConstraint _ _ _).2 ⟨c, hc, hk⟩⟩
  clear hf hn
  generalize constraints vals = cs at hf'
  induction cs with
  | nil => exact ⟨0, by simp [prods]⟩
  | cons c cs ih =>
    obtain ⟨k, hk⟩ := ih fun d hd => hf' d (List.mem_cons_of_mem _ hd)
    obtain ⟨x, hx⟩ := hf' c List.mem_cons_self
    refine ⟨x + k, ?_⟩
    simp only [prods, List.mem_flatMap, List.mem_map]
    exact ⟨_, hx, _, hk, rfl⟩

/-! ## Solving -/

section
variable [DecidableEq V] [Inhabited V]

theorem solve_all [IsOrderedAddMonoid K] (s : Solver V A K) (hs : WF s) (hne : s.vars ≠ []) :
    ∃ out, s.solve 0 = .ok out ∧ (out.map Sol.pair).Perm (prods s.vars) ∧
      out.Pairwise (fun x y => x.cost ≤ y.cost) := by
  cases hv : s.vars with
  | nil => exact absurd hv hne
  | cons c cs =>
    have hg := hs.good c (by rw [hv]; exact List.mem_cons_self)
    have hmk : s.mkNode [] 0 = some ⟨[], c.1, c.2, 0⟩ := by
      simp [Solver.mkNode, Solver.firstFree, hv]
    have hwf : NodeWF s ⟨[], c.1, c.2, 0⟩ :=
      ⟨by simp, hg.1, c.2, by simp [hv], List.suffix_refl _⟩
    have hcomps : comps s ⟨[], c.1, c.2, 0⟩ = prods s.vars := by
      simp [comps, hv, prods]
    have hweight : weight s ⟨[], c.1, c.2, 0⟩ ≤ (sizes s.vars).2 := by
      simp [weight, hv, sizes]
    have hpend : pending s [⟨[], c.1, c.2, 0⟩] [] [] = prods s.vars := by
      simp [pending, hcomps]
    obtain ⟨out, h1, h2, h3⟩ := outer_spec s hs (sizes s.vars).2 ((sizes s.vars).1 + 1) 0
      { fringe := [⟨[], c.1, c.2, 0⟩], ub := ⊤, sols := PQ.init Sol.cost 1 [],
        pruned := PQ.init s.cost 1 [] } []
      ⟨by simpa using hwf, init_holds _ 1 (by decide) _, init_holds _ 1 (by decide) _, rfl⟩
      (by simpa [total] using hweight)
      (by
        show (pending s [⟨[], c.1, c.2, 0⟩] [] []).length < _
        rw [hpend, prods_length]; omega)
    refine ⟨out, ?_, ?_, h3⟩
    · simp only [Solver.solve, hmk]; exact h1
    · have h2' : (out.map Sol.pair).Perm (pending s [⟨[], c.1, c.2, 0⟩] [] []) := h2
      rw [hpend, hv] at h2'
      exact h2'

theorem yieldLoop_k (k : ℕ) (ub : WithTop K) : ∀ (f count : ℕ) (h : PQ K (Sol V A K)) ys h' b c',
    Solver.yieldLoop 0 ub f count h = .ok (ys, h', b, c') → count < k →
    b = false ∧ c' = count + ys.length ∧
    (c' < k → Solver.yieldLoop k ub f count h = .ok (ys, h', false, c')) ∧
    (k ≤ c' → ∃ h'' c'', Solver.yieldLoop k ub f count h = .ok (ys.take (k - count), h'', true, c''))
  | 0, _, _, _, _, _, _, h0, _ => by simp [Solver.yieldLoop] at h0
  | f + 1, count, h, ys, h', b, c', h0, hk => by
    unfold Solver.yieldLoop at h0 ⊢
    by_cases hn : h.n = 0
    · rw [if_pos hn] at h0 ⊢
      simp only [Except.ok.injEq, Prod.mk.injEq] at h0
      obtain ⟨rfl, rfl, rfl, rfl⟩ := h0
      refine ⟨rfl, rfl, fun _ => rfl, fun hc => by omega⟩
    · rw [if_neg hn] at h0 ⊢
      simp only [bind, Except.bind] at h0 ⊢
      cases hg : h.get 0 with
      | error e => simp [hg] at h0
      | ok top =>
        simp only [hg] at h0 ⊢
        by_cases ht : (top.cost : WithTop K) = ub
        · rw [if_pos ht] at h0 ⊢
          cases hp : h.pop with
          | error e => simp [hp] at h0
          | ok r =>
            obtain ⟨sol, h1⟩ := r
            simp only [hp] at h0 ⊢
            rw [if_neg (by simp)] at h0
            cases hr : Solver.yieldLoop 0 ub f (count + 1) h1 with
            | error e => simp [hr] at h0
            | ok r =>
              obtain ⟨ys1, h2, b2, c2⟩ := r
              simp only [hr, Except.ok.injEq, Prod.mk.injEq] at h0
              obtain ⟨rfl, rfl, rfl, rfl⟩ := h0
              by_cases hk1 : count + 1 < k
              · obtain ⟨i1, i2, i3, i4⟩ := yieldLoop_k k ub f (count + 1) h1 ys1 h2 b2 c2 hr hk1
                rw [if_neg (by omega)]
                refine ⟨i1, by simp [i2]; omega, fun hc => ?_, fun hc => ?_⟩
                · simp only [i3 hc]
                · obtain ⟨h'', c'', i5⟩ := i4 hc
                  refine ⟨h'', c'', ?_⟩
                  simp only [i5]
                  have : k - count = (k - (count + 1)) + 1 := by omega
                  rw [this, List.take_succ_cons]
              · have hk2 : k = count + 1 := by omega
                have hlen : b2 = false ∧ c2 = count + 1 + ys1.length := by
                  obtain ⟨i1, i2, -⟩ := yieldLoop_k (count + 2) ub f (count + 1) h1 ys1 h2 b2 c2 hr (by omega)
                  exact ⟨i1, i2⟩
                rw [if_pos ⟨by omega, by omega⟩]
                refine ⟨hlen.1, by simp [hlen.2]; omega, fun hc => by omega, fun _ => ?_⟩
                refine ⟨h1, count + 1, ?_⟩
                have : k - count = 1 := by omega
                rw [this]; rfl
        · rw [if_neg ht] at h0 ⊢
          simp only [Except.ok.injEq, Prod.mk.injEq] at h0
          obtain ⟨rfl, rfl, rfl, rfl⟩ := h0
          refine ⟨rfl, rfl, fun _ => rfl, fun hc => by omega⟩

theorem outer_k (s : Solver V A K) (k fi : ℕ) : ∀ (f count : ℕ) (t : St V A K) out,
    s.outer 0 fi f count t = .ok out → count < k → s.outer k fi f count t = .ok (out.take (k - count))
  | 0, _, _, _, h0, _ => by simp [Solver.outer] at h0
  | f + 1, count, t, out, h0, hk => by
    unfold Solver.outer at h0 ⊢
    by_cases he : t.fringe.isEmpty = true ∧ t.sols.n = 0
    · rw [if_pos he] at h0 ⊢
      cases h0; simp
    · rw [if_neg he] at h0 ⊢
      simp only [bind, Except.bind] at h0 ⊢
      cases hi : s.inner fi t with
      | error e => simp [hi] at h0
      | ok t1 =>
        simp only [hi] at h0 ⊢
        cases hy : Solver.yieldLoop 0 t1.ub (t1.sols.n + 1) count t1.sols with
        | error e => simp [hy] at h0
        | ok r =>
          obtain ⟨ys, h', b, c'⟩ := r
          obtain ⟨i1, i2, i3, i4⟩ := yieldLoop_k k _ _ _ _ _ _ _ _ hy hk
          subst i1
          simp only [hy, Bool.false_eq_true, if_false] at h0
          cases hd : drain t1.pruned.n t1.pruned with
          | error e => simp [hd] at h0
          | ok d =>
            obtain ⟨fr, pr⟩ := d
            simp only [hd] at h0
            cases ho : s.outer 0 fi f c' { fringe := t1.fringe ++ fr, ub := topCost h', sols := h', pruned := pr } with
            | error e => simp [ho] at h0
            | ok more =>
              simp only [ho, pure, Except.pure, Except.ok.injEq] at h0
              subst h0
              by_cases hc : c' < k
              · simp only [i3 hc, Bool.false_eq_true, if_false]
                simp only [outer_k s k fi f c' _ more ho hc, pure, Except.pure]
                rw [List.take_append, List.take_of_length_le (l := ys) (by omega)]
                have e : k - count - ys.length = k - c' := by omega
                rw [e]
              · obtain ⟨h'', c'', i5⟩ := i4 (by omega)
                simp only [i5, if_true, pure, Except.pure]
                rw [List.take_append_of_le_length (by omega)]

theorem solve_k (s : Solver V A K) (k : ℕ) (out : List (Sol V A K)) (h : s.solve 0 = .ok out) (hk : 0 < k) :
    s.solve k = .ok (out.take k) := by
  unfold Solver.solve at h ⊢
  cases hm : s.mkNode [] 0 with
  | none => simp [hm] at h
  | some n =>
    simp only [hm] at h ⊢
    exact outer_k s k _ _ 0 _ out h hk

end

end Verif.Mpe
