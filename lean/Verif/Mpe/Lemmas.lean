import Verif.Mpe.Model
import Verif.ListAux
import Mathlib.Data.List.Find
import Mathlib.Tactic.Abel
import Mathlib.Tactic.Ring
import Mathlib.Tactic.Linarith
import Mathlib.Algebra.Order.Group.Unbundled.Basic
import Mathlib.Algebra.Order.BigOperators.Group.List

/-! # Lemmas on the k-MPE solver -/

set_option linter.unusedSectionVars false

namespace Verif.Mpe

open Verif.HQ

/-! ## Heaps -/

section
variable {K β : Type} [LinearOrder K] [Inhabited β]

omit [Inhabited β] in
theorem holds_n {keyf : β → K} {s : PQ K β} {l : List β} (h : Holds keyf 1 s l) :
    s.n = l.length := by
  obtain ⟨es, h1, -, -, -, h5, -⟩ := h
  have := h5.length_eq
  rw [← h1, List.length_map, ← this]
  simp [PQ.data]

theorem holds_pop {keyf : β → K} {s : PQ K β} {l : List β} (h : Holds keyf 1 s l) (hne : s.n ≠ 0) :
    ∃ x l' s', s.pop = .ok (x, s') ∧ s.get 0 = .ok x ∧ l.Perm (x :: l') ∧
      (∀ y ∈ l, keyf x ≤ keyf y) ∧ Holds keyf 1 s' l' ∧ s.n = s'.n + 1 := by
  rcases pop_holds keyf 1 (by decide) s l h with ⟨-, h2, -⟩ | ⟨pre, x, post, s', h1, h2, h3, h4, h5, h6, h7⟩
  · exact absurd h2 hne
  · refine ⟨x, pre ++ post, s', h2, ?_, ?_, ?_, h5, h3⟩
    · simp [PQ.get, pyIndex, h3, h4]
    · rw [h1]; exact List.perm_middle
    · intro y hy
      rw [h1] at hy
      rcases List.mem_append.1 hy with hy | hy
      · have := h6 y hy; simp at this; exact this.le
      · rcases List.mem_cons.1 hy with rfl | hy
        · exact le_refl _
        · have := h7 y hy; simp at this; exact this

end

variable {V A K : Type} [LinearOrder K] [AddCommGroup K]

/-! ## Complete assignments -/

/-- All complete assignments of the variables with their total costs. -/
def prods : List (Constr V A K) → List (Assign V A × K)
  | [] => [([], 0)]
  | c :: cs => c.2.flatMap fun x => (prods cs).map fun t => ((c.1, x.1) :: t.1, x.2 + t.2)

/-- The sum of the costs of the first values. -/
def best : List (Constr V A K) → K
  | [] => 0
  | c :: cs => (match c.2 with | [] => 0 | x :: _ => x.2) + best cs

/-- The values are sorted by cost and there is at least one. -/
def Good (c : Constr V A K) : Prop := c.2 ≠ [] ∧ c.2.Pairwise (fun x y => x.2 ≤ y.2)

/-- The state of a solver after its construction. -/
structure WF (s : Solver V A K) [DecidableEq V] : Prop where
  nodup : (s.vars.map Prod.fst).Nodup
  good : ∀ c ∈ s.vars, Good c
  lb : ∀ d c, s.vars[d]? = some c → (s.lb.lookup c.1).getD 0 = best (s.vars.drop (d + 1))

theorem best_le [IsOrderedAddMonoid K] : ∀ (cs : List (Constr V A K)), (∀ c ∈ cs, Good c) →
    ∀ t ∈ prods cs, best cs ≤ t.2
  | [], _, t, ht => by
    simp only [prods, List.mem_singleton] at ht
    subst ht; exact le_refl _
  | c :: cs, hg, t, ht => by
    simp only [prods, List.mem_flatMap, List.mem_map] at ht
    obtain ⟨x, hx, u, hu, rfl⟩ := ht
    have h1 := best_le cs (fun c hc => hg c (List.mem_cons_of_mem _ hc)) u hu
    have h2 := hg c List.mem_cons_self
    obtain ⟨v, vals⟩ := c
    cases vals with
    | nil => exact absurd rfl h2.1
    | cons y ys =>
      simp only [best]
      apply add_le_add _ h1
      rcases List.mem_cons.1 hx with rfl | hx
      · exact le_refl _
      · exact (List.pairwise_cons.1 h2.2).1 x hx

theorem prods_length (cs : List (Constr V A K)) : (prods cs).length = (sizes cs).1 := by
  induction cs with
  | nil => rfl
  | cons c cs ih =>
    simp only [prods, sizes, List.length_flatMap, List.length_map, ih]
    simp

theorem prods_ne_nil (cs : List (Constr V A K)) (h : ∀ c ∈ cs, Good c) : prods cs ≠ [] := by
  induction cs with
  | nil => simp [prods]
  | cons c cs ih =>
    have h1 := ih (fun d hd => h d (List.mem_cons_of_mem _ hd))
    have h2 := (h c List.mem_cons_self).1
    simp only [prods]
    intro hc
    rw [List.flatMap_eq_nil_iff] at hc
    obtain ⟨x, hx⟩ := List.exists_mem_of_ne_nil _ h2
    exact h1 (by simpa using hc x hx)

/-! ## Nodes -/

section
variable [DecidableEq V]

/-- The node belongs to the solver: the variables before its variable are assigned, its remaining
values are the last ones of its variable. -/
def NodeWF (s : Solver V A K) (n : Node V A K) : Prop :=
  n.old.map Prod.fst = (s.vars.take n.old.length).map Prod.fst ∧ n.cur ≠ [] ∧
    ∃ vals, s.vars[n.old.length]? = some (n.var, vals) ∧ n.cur <:+ vals

/-- The complete assignments below a node. -/
def comps (s : Solver V A K) (n : Node V A K) : List (Assign V A × K) :=
  n.cur.flatMap fun x => (prods (s.vars.drop (n.old.length + 1))).map fun t =>
    (n.old ++ (n.var, x.1) :: t.1, n.actual + (x.2 + t.2))

/-- The bound on the number of passes spent on a node. -/
def weight (s : Solver V A K) (n : Node V A K) : ℕ :=
  n.cur.length * (sizes (s.vars.drop (n.old.length + 1))).2

theorem sizes_pos (cs : List (Constr V A K)) : 1 ≤ (sizes cs).2 := by
  cases cs with
  | nil => simp [sizes]
  | cons c cs => simp [sizes]

theorem weight_pos (s : Solver V A K) (n : Node V A K) (h : NodeWF s n) : 1 ≤ weight s n := by
  have h1 := List.length_pos_iff.2 h.2.1
  exact Nat.mul_pos h1 (sizes_pos _)

/-- The first free variable behind an assignment of the first variables. -/
theorem firstFree_eq (s : Solver V A K) (hn : (s.vars.map Prod.fst).Nodup) (st : Assign V A)
    (h : st.map Prod.fst = (s.vars.take st.length).map Prod.fst) :
    s.firstFree st = s.vars[st.length]? := by
  unfold Solver.firstFree
  have key : ∀ (d : ℕ) (vs : List (Constr V A K)), (vs.map Prod.fst).Nodup →
      vs.find? (fun c => decide (c.1 ∉ (vs.take d).map Prod.fst)) = vs[d]? := by
    intro d
    induction d with
    | zero =>
      intro vs _
      cases vs <;> simp
    | succ d ih =>
      intro vs hv
      cases vs with
      | nil => simp
      | cons c vs =>
        rw [List.map_cons, List.nodup_cons] at hv
        rw [List.take_succ_cons, List.find?_cons_of_neg (by simp), List.getElem?_cons_succ, ← ih vs hv.2]
        apply List.find?_congr
        intro x hx
        have : x.1 ≠ c.1 := fun he => hv.1 (he ▸ List.mem_map_of_mem hx)
        simp [this]
  rw [h]
  exact key st.length s.vars hn

theorem isGoal_iff (s : Solver V A K) (hn : (s.vars.map Prod.fst).Nodup) (st : Assign V A)
    (h : st.map Prod.fst = (s.vars.take st.length).map Prod.fst) :
    s.isGoal st = true ↔ s.vars.length ≤ st.length := by
  have hf := firstFree_eq s hn st h
  unfold Solver.firstFree at hf
  unfold Solver.isGoal
  rw [List.all_eq_true]
  constructor
  · intro ha
    have : s.vars.find? (fun c => decide (c.1 ∉ st.map Prod.fst)) = none := by
      rw [List.find?_eq_none]
      intro c hc
      have := ha c hc
      simpa using this
    rw [this] at hf
    exact List.getElem?_eq_none_iff.1 hf.symm
  · intro hl
    rw [List.getElem?_eq_none hl, List.find?_eq_none] at hf
    intro c hc
    have := hf c hc
    simpa using this

theorem cost_eq (s : Solver V A K) (hs : WF s) (n : Node V A K) (h : NodeWF s n) (a : A) (c : K)
    (t : List (A × K)) (hc : n.cur = (a, c) :: t) :
    s.cost n = n.actual + c + best (s.vars.drop (n.old.length + 1)) := by
  obtain ⟨-, -, vals, h2, -⟩ := h
  unfold Solver.cost Node.stepped
  rw [hs.lb _ _ h2, hc]

theorem cost_le_comps [IsOrderedAddMonoid K] (s : Solver V A K) (hs : WF s) (n : Node V A K)
    (h : NodeWF s n) : ∀ x ∈ comps s n, s.cost n ≤ x.2 := by
  intro x hx
  cases hc : n.cur with
  | nil => exact absurd hc h.2.1
  | cons y t =>
    obtain ⟨a, c⟩ := y
    rw [cost_eq s hs n h a c t hc]
    unfold comps at hx
    rw [List.mem_flatMap] at hx
    obtain ⟨z, hz, hx⟩ := hx
    rw [List.mem_map] at hx
    obtain ⟨u, hu, rfl⟩ := hx
    obtain ⟨-, -, vals, h2, h3⟩ := h
    have hg := hs.good _ (List.mem_of_getElem? h2)
    have hp : n.cur.Pairwise (fun x y => x.2 ≤ y.2) := hg.2.sublist h3.sublist
    rw [hc] at hp hz
    have h4 : c ≤ z.2 := by
      rcases List.mem_cons.1 hz with rfl | hz
      · exact le_refl _
      · exact (List.pairwise_cons.1 hp).1 z hz
    have h5 := best_le _ (fun d hd => hs.good d (List.mem_of_mem_drop hd)) u hu
    rw [add_assoc]
    exact add_le_add (le_refl _) (add_le_add h4 h5)

theorem comps_ne_nil (s : Solver V A K) (hs : WF s) (n : Node V A K) (h : NodeWF s n) :
    comps s n ≠ [] := by
  unfold comps
  intro hc
  rw [List.flatMap_eq_nil_iff] at hc
  obtain ⟨x, hx⟩ := List.exists_mem_of_ne_nil _ h.2.1
  exact prods_ne_nil _ (fun d hd => hs.good d (List.mem_of_mem_drop hd)) (by simpa using hc x hx)

/-- What becomes of a node when its current value is taken. -/
theorem comps_cons (s : Solver V A K) (n : Node V A K) (a : A) (c : K) (t : List (A × K))
    (hc : n.cur = (a, c) :: t) :
    comps s n = ((prods (s.vars.drop (n.old.length + 1))).map fun u =>
      (n.old ++ (n.var, a) :: u.1, n.actual + (c + u.2))) ++ comps s n.next := by
  unfold comps Node.next
  rw [hc]
  rfl

theorem next_wf (s : Solver V A K) (n : Node V A K) (h : NodeWF s n) (hne : n.next.cur ≠ []) :
    NodeWF s n.next := by
  obtain ⟨h1, h2, vals, h3, h4⟩ := h
  refine ⟨h1, hne, vals, h3, ?_⟩
  exact (List.tail_suffix _).trans h4

theorem state_eq (s : Solver V A K) (n : Node V A K) (h : NodeWF s n) (a : A) (c : K)
    (t : List (A × K)) (hc : n.cur = (a, c) :: t) :
    n.state = some (n.old ++ [(n.var, a)]) ∧
    (n.old ++ [(n.var, a)]).map Prod.fst
      = (s.vars.take (n.old ++ [(n.var, a)]).length).map Prod.fst ∧
    (n.old ++ [(n.var, a)]).length = n.old.length + 1 ∧ n.old.length < s.vars.length := by
  obtain ⟨h1, -, vals, h3, -⟩ := h
  refine ⟨by simp [Node.state, hc], ?_, by simp, (List.getElem?_eq_some_iff.1 h3).1⟩
  rw [List.map_append, h1, List.length_append]
  simp only [List.map_cons, List.map_nil, List.length_cons, List.length_nil, Nat.zero_add]
  rw [List.take_add_one, h3, List.map_append]
  rfl

theorem mkNode_spec (s : Solver V A K) (hs : WF s) (n : Node V A K) (h : NodeWF s n) (a : A) (c : K)
    (t : List (A × K)) (hc : n.cur = (a, c) :: t) (hlt : n.old.length + 1 < s.vars.length) :
    ∃ new, s.mkNode (n.old ++ [(n.var, a)]) n.stepped = some new ∧ NodeWF s new ∧
      comps s n = comps s new ++ comps s n.next ∧ weight s n = weight s new + 1 + weight s n.next := by
  obtain ⟨-, h2, h3, -⟩ := state_eq s n h a c t hc
  have hget : s.vars[n.old.length + 1]? = some s.vars[n.old.length + 1] := by simp [hlt]
  have hf := firstFree_eq s hs.nodup _ h2
  rw [h3, hget] at hf
  have hdrop : s.vars.drop (n.old.length + 1)
      = s.vars[n.old.length + 1] :: s.vars.drop (n.old.length + 2) := List.drop_eq_getElem_cons hlt
  refine ⟨_, by simp only [Solver.mkNode, hf]; rfl, ⟨?_, ?_, s.vars[n.old.length + 1].2, ?_, ?_⟩, ?_, ?_⟩
  · exact h2
  · exact (hs.good _ (List.getElem_mem hlt)).1
  · show s.vars[(n.old ++ [(n.var, a)]).length]? = _
    rw [h3, hget]
  · exact List.suffix_refl _
  · rw [comps_cons s n a c t hc]
    congr 1
    unfold comps
    simp only [h3]
    rw [hdrop, prods, List.map_flatMap]
    congr 1
    funext x
    rw [List.map_map]
    apply List.map_congr_left
    intro u _
    simp only [Function.comp, Prod.mk.injEq, List.append_assoc, List.cons_append, List.nil_append,
      true_and, Node.stepped, hc]
    abel
  · unfold weight Node.next
    simp only [h3, hc, List.length_cons, List.tail_cons]
    rw [hdrop, sizes]
    ring

/-! ## The inner loop -/

variable [Inhabited V]

theorem comps_putBack (s : Solver V A K) (n : Node V A K) (l : List (Node V A K)) :
    (putBack n l).flatMap (comps s) = comps s n ++ l.flatMap (comps s) := by
  unfold putBack
  split_ifs with h
  · have : comps s n = [] := by
      unfold comps; rw [List.isEmpty_iff.1 h]; rfl
    rw [this]; rfl
  · rfl

theorem weight_putBack (s : Solver V A K) (n : Node V A K) (l : List (Node V A K)) :
    ((putBack n l).map (weight s)).sum = weight s n + (l.map (weight s)).sum := by
  unfold putBack
  split_ifs with h
  · have : weight s n = 0 := by
      unfold weight; rw [List.isEmpty_iff.1 h]; simp
    rw [this, Nat.zero_add]
  · rfl

theorem wf_putBack (s : Solver V A K) (n : Node V A K) (l : List (Node V A K)) (h : NodeWF s n)
    (hl : ∀ m ∈ l, NodeWF s m) : ∀ m ∈ putBack n.next l, NodeWF s m := by
  unfold putBack
  split_ifs with hc
  · exact hl
  · intro m hm
    rcases List.mem_cons.1 hm with rfl | hm
    · exact next_wf s n h (by simpa [List.isEmpty_iff] using hc)
    · exact hl m hm

/-- A solution as an assignment with its cost. -/
def Sol.pair (x : Sol V A K) : Assign V A × K := (x.state, x.cost)

/-- The invariant of the inner loop. -/
structure Inv (s : Solver V A K) (t : St V A K) (ls : List (Sol V A K)) (lp : List (Node V A K)) :
    Prop where
  fr : ∀ n ∈ t.fringe, NodeWF s n
  hs : Holds Sol.cost 1 t.sols ls
  hp : Holds s.cost 1 t.pruned lp
  pr : ∀ n ∈ lp, NodeWF s n ∧ t.ub < (s.cost n : WithTop K)
  ge : ∀ x ∈ ls, t.ub ≤ (x.cost : WithTop K)
  att : t.ub ≠ ⊤ → ∃ x ∈ ls, (x.cost : WithTop K) = t.ub

/-- Everything still to be yielded. -/
def pending (s : Solver V A K) (fr : List (Node V A K)) (ls : List (Sol V A K))
    (lp : List (Node V A K)) : List (Assign V A × K) :=
  fr.flatMap (comps s) ++ lp.flatMap (comps s) ++ ls.map Sol.pair

/-- The total bound on the passes. -/
def total (s : Solver V A K) (l : List (Node V A K)) : ℕ := (l.map (weight s)).sum

theorem stepNode_spec (s : Solver V A K) (hs : WF s) (t : St V A K)
    (ls : List (Sol V A K)) (lp : List (Node V A K)) (h : Inv s t ls lp) (node : Node V A K)
    (rest : List (Node V A K)) (hfr : t.fringe = node :: rest) :
    ∃ t' ls' lp', s.stepNode node rest t = .ok t' ∧ Inv s t' ls' lp' ∧
      (pending s t.fringe ls lp).Perm (pending s t'.fringe ls' lp') ∧
      total s t'.fringe < total s t.fringe ∧
      total s t'.fringe + total s lp' ≤ total s t.fringe + total s lp := by
  have hn : NodeWF s node := h.fr node (by rw [hfr]; exact List.mem_cons_self)
  have hrest : ∀ m ∈ rest, NodeWF s m :=
    fun m hm => h.fr m (by rw [hfr]; exact List.mem_cons_of_mem _ hm)
  have hw := weight_pos s node hn
  cases hc : node.cur with
  | nil => exact absurd hc hn.2.1
  | cons y tl =>
    obtain ⟨a, c⟩ := y
    obtain ⟨h1, h2, h3, h4⟩ := state_eq s node hn a c tl hc
    have hcost := cost_eq s hs node hn a c tl hc
    -- pushing the node to the pruned heap
    have hprune : t.ub < (s.cost node : WithTop K) →
        ∃ t' ls' lp', Except.ok (ε := Err) { t with pruned := t.pruned.push s.cost 1 node, fringe := rest }
            = .ok t' ∧ Inv s t' ls' lp' ∧
          (pending s t.fringe ls lp).Perm (pending s t'.fringe ls' lp') ∧
          total s t'.fringe < total s t.fringe ∧
          total s t'.fringe + total s lp' ≤ total s t.fringe + total s lp := by
      intro hlt
      refine ⟨_, ls, lp ++ [node], rfl, ⟨hrest, h.hs, push_holds _ 1 (by decide) _ _ _ h.hp, ?_, h.ge, h.att⟩,
        ?_, ?_, ?_⟩
      · intro m hm
        rcases List.mem_append.1 hm with hm | hm
        · exact h.pr m hm
        · rw [List.mem_singleton.1 hm]; exact ⟨hn, hlt⟩
      · unfold pending
        rw [hfr]
        simp only [List.flatMap_cons, List.flatMap_append, List.flatMap_nil, List.append_nil]
        apply List.Perm.append_right
        rw [List.append_assoc]
        refine List.perm_append_comm.trans ?_
        rw [List.append_assoc]
      · simp only [total, hfr, List.map_cons, List.sum_cons]; omega
      · simp only [total, hfr, List.map_cons, List.sum_cons, List.map_append, List.map_nil,
          List.sum_append, List.sum_nil]
        omega
    unfold Solver.stepNode
    simp only [h1]
    by_cases hg : s.isGoal (node.old ++ [(node.var, a)]) = true
    · rw [if_pos hg]
      have hlen := (isGoal_iff s hs.nodup _ h2).1 hg
      rw [h3] at hlen
      have hdrop : s.vars.drop (node.old.length + 1) = [] := List.drop_eq_nil_of_le hlen
      by_cases hub : (s.cost node : WithTop K) ≤ t.ub
      · rw [if_pos hub]
        refine ⟨_, ls ++ [⟨node.old ++ [(node.var, a)], s.cost node⟩], lp, rfl,
          ⟨wf_putBack s node rest hn hrest, push_holds _ 1 (by decide) _ _ _ h.hs, h.hp, ?_, ?_, ?_⟩,
          ?_, ?_, ?_⟩
        · intro m hm
          exact ⟨(h.pr m hm).1, lt_of_le_of_lt hub (h.pr m hm).2⟩
        · intro x hx
          rcases List.mem_append.1 hx with hx | hx
          · exact le_trans hub (h.ge x hx)
          · rw [List.mem_singleton.1 hx]
        · intro _
          exact ⟨_, List.mem_append_right _ List.mem_cons_self, rfl⟩
        · unfold pending
          rw [hfr, comps_putBack, List.flatMap_cons, comps_cons s node a c tl hc, hdrop, hcost, hdrop]
          simp only [prods, best, List.map_cons, List.map_nil, List.map_append, Sol.pair, add_zero]
          simp only [List.append_assoc, List.cons_append, List.nil_append]
          refine List.Perm.trans List.perm_middle.symm ?_
          exact List.Perm.append_left _ (List.Perm.trans List.perm_middle.symm
            (List.Perm.append_left _ (List.perm_middle.symm.trans (by
              refine List.Perm.append_left _ ?_
              exact (List.perm_append_singleton _ _).symm))))
        · simp only [total, hfr, weight_putBack, List.map_cons, List.sum_cons]
          have : weight s node.next < weight s node := by
            unfold weight Node.next
            simp only [hc, List.tail_cons, List.length_cons]
            have := sizes_pos (s.vars.drop (node.old.length + 1))
            rw [Nat.succ_mul]; omega
          omega
        · simp only [total, hfr, weight_putBack, List.map_cons, List.sum_cons]
          have : weight s node.next ≤ weight s node := by
            unfold weight Node.next
            simp only [hc, List.tail_cons, List.length_cons]
            rw [Nat.succ_mul]; omega
          omega
      · rw [if_neg hub]
        exact hprune (not_le.1 hub)
    · rw [if_neg hg]
      by_cases hub : t.ub < (s.cost node : WithTop K)
      · rw [if_pos hub]; exact hprune hub
      · rw [if_neg hub]
        have hlt : node.old.length + 1 < s.vars.length := by
          by_contra hcon
          exact hg ((isGoal_iff s hs.nodup _ h2).2 (by rw [h3]; omega))
        obtain ⟨new, g1, g2, g3, g4⟩ := mkNode_spec s hs node hn a c tl hc hlt
        rw [g1]
        refine ⟨_, ls, lp, rfl, ⟨?_, h.hs, h.hp, h.pr, h.ge, h.att⟩, ?_, ?_, ?_⟩
        · intro m hm
          rcases List.mem_cons.1 hm with rfl | hm
          · exact g2
          · exact wf_putBack s node rest hn hrest m hm
        · unfold pending
          rw [hfr, List.flatMap_cons, List.flatMap_cons, comps_putBack, g3]
          simp only [List.append_assoc]
          exact List.Perm.refl _
        · simp only [total, hfr, List.map_cons, List.sum_cons, weight_putBack, g4]; omega
        · simp only [total, hfr, List.map_cons, List.sum_cons, weight_putBack, g4]; omega

theorem inner_spec (s : Solver V A K) (hs : WF s) : ∀ (f : ℕ) (t : St V A K)
    (ls : List (Sol V A K)) (lp : List (Node V A K)), Inv s t ls lp → total s t.fringe ≤ f →
    ∃ t' ls' lp', s.inner f t = .ok t' ∧ Inv s t' ls' lp' ∧ t'.fringe = [] ∧
      (pending s t.fringe ls lp).Perm (pending s [] ls' lp') ∧
      total s lp' ≤ total s t.fringe + total s lp
  | 0, t, ls, lp, h, hf => by
    cases hfr : t.fringe with
    | nil =>
      refine ⟨t, ls, lp, by simp [Solver.inner, hfr], h, hfr, List.Perm.refl _, ?_⟩
      simp [total]
    | cons n l =>
      have := weight_pos s n (h.fr n (by rw [hfr]; exact List.mem_cons_self))
      rw [hfr] at hf
      simp only [total, List.map_cons, List.sum_cons] at hf
      omega
  | f + 1, t, ls, lp, h, hf => by
    cases hfr : t.fringe with
    | nil =>
      refine ⟨t, ls, lp, by simp [Solver.inner, hfr], h, hfr, List.Perm.refl _, ?_⟩
      simp [total]
    | cons n l =>
      obtain ⟨t1, ls1, lp1, g1, g2, g3, g4, g5⟩ := stepNode_spec s hs t ls lp h n l hfr
      obtain ⟨t2, ls2, lp2, k1, k2, k3, k4, k5⟩ := inner_spec s hs f t1 ls1 lp1 g2 (by omega)
      refine ⟨t2, ls2, lp2, ?_, k2, k3, ?_, ?_⟩
      · simp only [Solver.inner, hfr, g1, bind, Except.bind]; exact k1
      · rw [← hfr]; exact g3.trans k4
      · rw [← hfr]; omega

/-! ## Yielding -/

theorem yieldLoop_all (ub : WithTop K) : ∀ (f count : ℕ) (h : PQ K (Sol V A K))
    (ls : List (Sol V A K)), Holds Sol.cost 1 h ls → ls.length < f → (∀ x ∈ ls, ub ≤ (x.cost : WithTop K)) →
    ∃ ys h' ls', Solver.yieldLoop 0 ub f count h = .ok (ys, h', false, count + ys.length) ∧
      Holds Sol.cost 1 h' ls' ∧ ls.Perm (ys ++ ls') ∧ (∀ y ∈ ys, (y.cost : WithTop K) = ub) ∧
      (∀ x ∈ ls', ub < (x.cost : WithTop K))
  | 0, _, _, _, _, hf, _ => by omega
  | f + 1, count, h, ls, hh, hf, hge => by
    unfold Solver.yieldLoop
    by_cases h0 : h.n = 0
    · rw [if_pos h0]
      have : ls = [] := by
        have := holds_n hh; rw [h0] at this; exact List.length_eq_zero_iff.1 this.symm
      subst this
      exact ⟨[], h, [], rfl, hh, List.Perm.refl _, by simp, by simp⟩
    · rw [if_neg h0]
      obtain ⟨x, l', s', g1, g2, g3, g4, g5, g6⟩ := holds_pop hh h0
      simp only [g2, bind, Except.bind]
      by_cases hx : (x.cost : WithTop K) = ub
      · rw [if_pos hx]
        simp only [g1]
        rw [if_neg (by simp)]
        obtain ⟨ys, h', ls', k1, k2, k3, k4, k5⟩ := yieldLoop_all ub f (count + 1) s' l' g5
          (by have := g3.length_eq; simp at this; omega)
          (fun y hy => hge y (g3.symm.subset (List.mem_cons_of_mem _ hy)))
        refine ⟨x :: ys, h', ls', ?_, k2, ?_, ?_, k5⟩
        · simp only [k1, List.length_cons]
          congr 4
          omega
        · exact g3.trans (List.Perm.cons _ k3)
        · intro y hy
          rcases List.mem_cons.1 hy with rfl | hy
          · exact hx
          · exact k4 y hy
      · rw [if_neg hx]
        refine ⟨[], h, ls, rfl, hh, List.Perm.refl _, by simp, ?_⟩
        intro y hy
        have h1 := hge x (g3.symm.subset List.mem_cons_self)
        have h2 : (x.cost : WithTop K) ≤ (y.cost : WithTop K) := WithTop.coe_le_coe.2 (g4 y hy)
        exact lt_of_lt_of_le (lt_of_le_of_ne h1 (Ne.symm hx)) h2

theorem drain_spec (s : Solver V A K) : ∀ (f : ℕ) (h : PQ K (Node V A K)) (lp : List (Node V A K)),
    Holds s.cost 1 h lp → lp.length ≤ f → ∃ xs h', drain f h = .ok (xs, h') ∧ xs.Perm lp ∧
      Holds s.cost 1 h' []
  | 0, h, lp, hh, hf => by
    have h1 := holds_n hh
    have : lp = [] := List.length_eq_zero_iff.1 (by omega)
    subst this
    simp at h1
    exact ⟨[], h, by simp [drain, h1], List.Perm.refl _, hh⟩
  | f + 1, h, lp, hh, hf => by
    unfold drain
    have h1 := holds_n hh
    by_cases h0 : h.n = 0
    · rw [if_pos h0]
      have : lp = [] := List.length_eq_zero_iff.1 (by omega)
      subst this
      exact ⟨[], h, rfl, List.Perm.refl _, hh⟩
    · rw [if_neg h0]
      obtain ⟨x, l', s', g1, g2, g3, g4, g5, g6⟩ := holds_pop hh h0
      obtain ⟨xs, h', k1, k2, k3⟩ := drain_spec s f s' l' g5
        (by have := g3.length_eq; simp at this; omega)
      refine ⟨x :: xs, h', ?_, ?_, k3⟩
      · simp only [g1, bind, Except.bind, k1]; rfl
      · exact (List.Perm.cons _ k2).trans g3.symm

/-! ## The outer loop -/

/-- The invariant at the head of the outer loop. -/
structure OInv (s : Solver V A K) (t : St V A K) (ls : List (Sol V A K)) : Prop where
  fr : ∀ n ∈ t.fringe, NodeWF s n
  hs : Holds Sol.cost 1 t.sols ls
  hp : Holds s.cost 1 t.pruned []
  ub : t.ub = topCost t.sols

theorem OInv.inv {s : Solver V A K} {t : St V A K} {ls : List (Sol V A K)} (h : OInv s t ls) :
    Inv s t ls [] := by
  refine ⟨h.fr, h.hs, h.hp, by simp, ?_, ?_⟩
  · intro x hx
    have hn : t.sols.n ≠ 0 := by
      rw [holds_n h.hs]; have := List.length_pos_of_mem hx; omega
    obtain ⟨y, l', s', g1, g2, g3, g4, g5, g6⟩ := holds_pop h.hs hn
    rw [h.ub, topCost, g2]
    exact WithTop.coe_le_coe.2 (g4 x hx)
  · intro hne
    by_cases hn : t.sols.n = 0
    · exfalso
      apply hne
      rw [h.ub, topCost]
      simp [PQ.get, pyIndex, hn]
    · obtain ⟨y, l', s', g1, g2, g3, g4, g5, g6⟩ := holds_pop h.hs hn
      refine ⟨y, g3.symm.subset List.mem_cons_self, ?_⟩
      rw [h.ub, topCost, g2]

theorem outer_spec [IsOrderedAddMonoid K] (s : Solver V A K) (hs : WF s) (fi : ℕ) :
    ∀ (f count : ℕ) (t : St V A K) (ls : List (Sol V A K)), OInv s t ls → total s t.fringe ≤ fi →
    (pending s t.fringe ls []).length < f →
    ∃ out, s.outer 0 fi f count t = .ok out ∧
      (out.map Sol.pair).Perm (pending s t.fringe ls []) ∧
      out.Pairwise (fun x y => x.cost ≤ y.cost)
  | 0, _, _, _, _, _, hf => by omega
  | f + 1, count, t, ls, h, hfi, hf => by
    unfold Solver.outer
    by_cases h0 : t.fringe.isEmpty = true ∧ t.sols.n = 0
    · rw [if_pos h0]
      have h1 : t.fringe = [] := List.isEmpty_iff.1 h0.1
      have h2 : ls = [] := by
        have := holds_n h.hs; rw [h0.2] at this; exact List.length_eq_zero_iff.1 this.symm
      refine ⟨[], rfl, ?_, List.Pairwise.nil⟩
      rw [h1, h2]; exact List.Perm.refl _
    · rw [if_neg h0]
      obtain ⟨t1, ls1, lp1, g1, g2, g3, g4, g5⟩ := inner_spec s hs fi t ls [] h.inv hfi
      simp only [g1, bind, Except.bind]
      have hn1 := holds_n g2.hs
      obtain ⟨ys, h', ls', k1, k2, k3, k4, k5⟩ := yieldLoop_all t1.ub (t1.sols.n + 1) count t1.sols ls1
        g2.hs (by omega) g2.ge
      simp only [k1, Bool.false_eq_true, if_false]
      obtain ⟨xs, hp', d1, d2, d3⟩ := drain_spec s t1.pruned.n t1.pruned lp1 g2.hp
        (by rw [holds_n g2.hp])
      simp only [d1, g3, List.nil_append]
      -- the next state
      have hpend : (pending s t.fringe ls []).Perm (ys.map Sol.pair ++ pending s xs ls' []) := by
        refine g4.trans ?_
        unfold pending
        simp only [List.flatMap_nil, List.nil_append, List.append_nil]
        have e1 : (lp1.flatMap (comps s)).Perm (xs.flatMap (comps s)) :=
          List.Perm.flatMap_right _ d2.symm
        have e2 : (ls1.map Sol.pair).Perm (ys.map Sol.pair ++ ls'.map Sol.pair) := by
          rw [← List.map_append]; exact k3.map _
        refine (e1.append e2).trans ?_
        rw [← List.append_assoc, ← List.append_assoc]
        exact List.Perm.append_right _ List.perm_append_comm
      have hys : ys ≠ [] := by
        rintro rfl
        -- nothing was yielded: then there is no upper bound and nothing is left
        have hub : t1.ub = ⊤ := by
          by_contra hne
          obtain ⟨x, hx, hx'⟩ := g2.att hne
          have := k5 x ((k3.subset hx))
          rw [hx'] at this
          exact absurd this (lt_irrefl _)
        have hlp : lp1 = [] := by
          rw [List.eq_nil_iff_forall_not_mem]
          intro n hn
          have := (g2.pr n hn).2
          rw [hub] at this
          exact absurd this not_top_lt
        have hls : ls1 = [] := by
          rw [List.eq_nil_iff_forall_not_mem]
          intro x hx
          have := g2.ge x hx
          rw [hub] at this
          exact absurd (top_le_iff.1 this) (WithTop.coe_ne_top)
        rw [hlp, hls] at g4
        have hnil : pending s t.fringe ls [] = [] := by
          have : (pending s ([] : List (Node V A K)) ([] : List (Sol V A K)) []) = [] := rfl
          rw [this] at g4
          exact g4.eq_nil
        unfold pending at hnil
        simp only [List.flatMap_nil, List.append_nil, List.append_eq_nil_iff, List.map_eq_nil_iff] at hnil
        apply h0
        refine ⟨?_, by rw [holds_n h.hs, hnil.2]; rfl⟩
        cases hfr : t.fringe with
        | nil => rfl
        | cons n l =>
          rw [hfr, List.flatMap_cons, List.append_eq_nil_iff] at hnil
          exact absurd hnil.1.1 (comps_ne_nil s hs n (h.fr n (by rw [hfr]; exact List.mem_cons_self)))
      have hwf : ∀ n ∈ xs, NodeWF s n := fun n hn => (g2.pr n (d2.subset hn)).1
      obtain ⟨out, o1, o2, o3⟩ := outer_spec s hs fi f (count + ys.length)
        { fringe := xs, ub := topCost h', sols := h', pruned := hp' } ls'
        ⟨hwf, k2, d3, rfl⟩
        (by
          show total s xs ≤ fi
          have : total s xs = total s lp1 := by
            unfold total; exact (d2.map _).sum_eq
          have e : total s ([] : List (Node V A K)) = 0 := rfl
          omega)
        (by
          have := hpend.length_eq
          rw [List.length_append, List.length_map] at this
          have hy := List.length_pos_iff.2 hys
          show (pending s xs ls' []).length < f
          omega)
      refine ⟨ys ++ out, ?_, ?_, ?_⟩
      · rw [o1]; rfl
      · rw [List.map_append]
        exact (List.Perm.append_left _ o2).trans hpend.symm
      · rw [List.pairwise_append]
        refine ⟨?_, o3, ?_⟩
        · refine List.pairwise_of_forall_mem_list ?_
          intro x hx y hy
          exact WithTop.coe_le_coe.1 (by rw [k4 x hx, k4 y hy])
        · intro x hx y hy
          have hy' : Sol.pair y ∈ pending s xs ls' [] := o2.subset (List.mem_map_of_mem hy)
          unfold pending at hy'
          rw [List.flatMap_nil, List.append_nil, List.mem_append] at hy'
          apply WithTop.coe_le_coe.1
          rw [k4 x hx]
          rcases hy' with hy' | hy'
          · obtain ⟨n, hn, hyn⟩ := List.mem_flatMap.1 hy'
            have hn' := g2.pr n (d2.subset hn)
            exact hn'.2.le.trans (WithTop.coe_le_coe.2 (cost_le_comps s hs n hn'.1 _ hyn))
          · obtain ⟨z, hz, hzy⟩ := List.mem_map.1 hy'
            have : z.cost = y.cost := by
              have := congrArg Prod.snd hzy; exact this
            rw [← this]
            exact (k5 z hz).le

end

end Verif.Mpe
