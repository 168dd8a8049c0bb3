import Verif.Vars.Lemmas
import Mathlib.Data.List.Perm.Subperm

/-!
# Variable maps: C54

`VMap.view`, the operations on `View` and `run` are specified in `Verif.Vars.Spec`.
-/

namespace Verif.Vars

variable {P A : Type}

/-- C54, partial: after any history of operations on a map, the object holds exactly what the same
history of finite-map operations gives — for each name the value last set, in the order of
insertion — and the same operations raise the same exceptions.  Names and variables address the same
entries.  What is missing: deleting a variable also removes its declaration, so that setting it by
name again raises (see `C54_violated_reset`). -/
theorem C54_history_partial (m : VMap P A) (hm : m.WF) (ops : List (Op P A))
    (hops : ∀ op ∈ ops, ∀ o, op = .update o ∨ op = .iadd o ∨ op = .isub o → o.WF) :
    (m.run ops).1.view = (m.view.run ops).1 ∧ (m.run ops).2 = (m.view.run ops).2 ∧ (m.run ops).1.WF := by
  induction ops generalizing m with
  | nil => exact ⟨rfl, rfl, hm⟩
  | cons op ops ih =>
    have hstep : (m.step op).map VMap.view = m.view.step op ∧ ∀ m', m.step op = .ok m' → m'.WF := by
      cases op with
      | set k a => exact VMap.set_spec hm k a
      | del k => exact VMap.del_spec hm k
      | update o =>
        obtain ⟨h1, h2⟩ := VMap.update_spec hm (hops _ List.mem_cons_self o (Or.inl rfl))
        refine ⟨congrArg Except.ok h1, ?_⟩
        intro m' e; cases e; exact h2
      | iadd o =>
        obtain ⟨m', h1, h2, h3⟩ := VMap.iadd_spec hm (hops _ List.mem_cons_self o (Or.inr (Or.inl rfl)))
        refine ⟨?_, ?_⟩
        · show (m.iadd o).map VMap.view = _
          rw [h1]; exact congrArg Except.ok h2
        · intro m'' e
          have e' : m.iadd o = .ok m'' := e
          rw [h1] at e'; cases e'; exact h3
      | isub o =>
        obtain ⟨m', h1, h2, h3⟩ := VMap.isub_spec hm (hops _ List.mem_cons_self o (Or.inr (Or.inr rfl)))
        refine ⟨?_, ?_⟩
        · show (m.isub o).map VMap.view = _
          rw [h1]; exact congrArg Except.ok h2
        · intro m'' e
          have e' : m.isub o = .ok m'' := e
          rw [h1] at e'; cases e'; exact h3
    have hops' : ∀ op ∈ ops, ∀ o, op = .update o ∨ op = .iadd o ∨ op = .isub o → o.WF :=
      fun op h => hops op (List.mem_cons_of_mem _ h)
    obtain ⟨hv, hw⟩ := hstep
    unfold VMap.run View.run
    cases hs : m.step op with
    | error e =>
      rw [hs] at hv
      rw [← hv]
      obtain ⟨i1, i2, i3⟩ := ih m hm hops'
      exact ⟨i1, by simp only [Except.map, i2], i3⟩
    | ok m' =>
      rw [hs] at hv
      rw [← hv]
      obtain ⟨i1, i2, i3⟩ := ih m' (hw m' hs) hops'
      exact ⟨i1, by simp only [Except.map, i2], i3⟩

/-- C54: what the map shows to the outside is its content: reading by name or by variable, membership,
length, and iteration in insertion order. -/
theorem C54_observe (m : VMap P A) (hm : m.WF) :
    (∀ k, m.get k = match k.target.bind m.view.val with | none => .error .keyError | some a => .ok a) ∧
    (∀ k, m.contains k = true ↔ ∃ n, k.target = some n ∧ n ∈ m.view.order) ∧
    (∀ k d, m.getD k d = .ok ((k.target.bind m.view.val).getD d)) ∧
    (∀ n, n ∈ m.view.order ↔ m.view.val n ≠ none) ∧ m.view.order.Nodup ∧
    m.len = m.view.order.length ∧
    (∃ is, m.items = .ok is ∧ is.map (fun i => i.1.name) = m.view.order ∧
      m.keys = .ok (is.map Prod.fst) ∧ m.values = is.map Prod.snd ∧
      ∀ i ∈ is, m.view.decl i.1.name = some i.1 ∧ m.view.val i.1.name = some i.2) := by
  have hget : ∀ k, m.get k = match k.target.bind m.view.val with | none => .error .keyError | some a => .ok a := by
    intro k
    cases k <;> rfl
  have hcont : ∀ k, m.contains k = true ↔ ∃ n, k.target = some n ∧ n ∈ m.view.order := by
    intro k
    cases k with
    | name n => simp [VMap.contains, Key.target, VMap.view]
    | var v => simp [VMap.contains, Key.target, VMap.view]
    | other => simp [VMap.contains, Key.target]
  refine ⟨hget, hcont, ?_, ?_, hm.map, by simp [VMap.len, VMap.view], ?_⟩
  · intro k d
    unfold VMap.getD
    by_cases hc : m.contains k = true
    · rw [if_pos hc, hget]
      obtain ⟨n, h1, h2⟩ := (hcont k).1 hc
      obtain ⟨a, ha⟩ := Dict.lookup_isSome.2 h2
      have : m.view.val n = some a := ha
      simp [h1, this]
    · rw [if_neg hc]
      congr 1
      cases ht : k.target with
      | none => rfl
      | some n =>
        have : n ∉ m.view.order := fun h => hc ((hcont k).2 ⟨n, ht, h⟩)
        have : m.view.val n = none := Dict.lookup_none.2 this
        simp [this]
  · intro n
    rw [ne_eq, VMap.view_val_none, Classical.not_not]
    rfl
  · obtain ⟨is, h1, h2⟩ := VMap.items_ok hm
    obtain ⟨ks, h3, h4⟩ := VMap.keys_ok hm
    refine ⟨is, h1, ?_, ?_, ?_, ?_⟩
    · show _ = m.map.map Prod.fst
      clear h1 h3 h4
      generalize m.map = l at h2
      induction h2 with
      | nil => rfl
      | cons hp _ ih => rw [List.map_cons, List.map_cons, hp.2.1, ih]
    · rw [h3]
      congr 1
      clear h1 h3
      generalize m.map = l at h2 h4
      induction h2 generalizing ks with
      | nil => cases h4; rfl
      | cons hp _ ih =>
        cases h4 with
        | cons hk h4 =>
          rw [List.map_cons, ← ih _ h4]
          congr 1
          exact Option.some.inj (hk.1.symm.trans hp.1)
    · unfold VMap.values
      clear h1 h3 h4
      generalize m.map = l at h2
      induction h2 with
      | nil => rfl
      | cons hp _ ih => rw [List.map_cons, List.map_cons, hp.2.2, ih]
    · intro i hi
      obtain ⟨p, hp, hpi⟩ := forall₂_mem_right h2 hi
      refine ⟨?_, ?_⟩
      · show m.vars.lookup i.1.name = _
        rw [hpi.2.1]; exact hpi.1
      · show m.map.lookup i.1.name = _
        rw [hpi.2.1, hpi.2.2]
        exact Dict.mem_lookup hm.map hp

/-- C54: the constructor gives a well-formed map, so the theorems apply to whatever it makes. -/
theorem C54_constructor (data : List (Key P × A)) (vs : List (Var P)) (m : VMap P A)
    (h : VMap.mk? data vs = .ok m) :
    m.WF ∧ (m.view, List.replicate data.length none)
      = (VMap.empty vs : VMap P A).view.run (data.map fun p => .set p.1 p.2) := by
  have key : ∀ (data : List (Key P × A)) (m0 m : VMap P A), m0.WF →
      data.foldlM (fun m p => m.set p.1 p.2) m0 = .ok m →
      m.WF ∧ (m.view, List.replicate data.length none) = m0.view.run (data.map fun p => .set p.1 p.2) := by
    intro data
    induction data with
    | nil =>
      intro m0 m h0 h
      cases h
      exact ⟨h0, rfl⟩
    | cons p data ih =>
      intro m0 m h0 h
      rw [List.foldlM_cons] at h
      obtain ⟨s1, s2⟩ := VMap.set_spec h0 p.1 p.2
      cases hs : m0.set p.1 p.2 with
      | error e => rw [hs] at h; cases h
      | ok m1 =>
        rw [hs] at h s1
        obtain ⟨i1, i2⟩ := ih m1 m (s2 m1 hs) h
        refine ⟨i1, ?_⟩
        rw [List.map_cons, View.run]
        have : m0.view.step (.set p.1 p.2) = .ok m1.view := s1.symm
        rw [this]
        simp only [← i2]
        rfl
  exact key data _ m (empty_wf vs) h

/-- C54: a copy holds the same as the original. -/
theorem C54_copy (m : VMap P A) (hm : m.WF) : ∃ c, m.copy = .ok c ∧ c.view = m.view := by
  obtain ⟨is, h1, h2⟩ := VMap.items_ok hm
  have hmap : (is.map fun p => (p.1.name, p.2)) = m.map := by
    clear h1
    generalize m.map = l at h2
    induction h2 with
    | nil => rfl
    | cons hp _ ih => rw [List.map_cons, hp.2.1, hp.2.2, ih]
  have hnames : (is.map fun p => p.1.name) = m.map.map Prod.fst := by
    rw [← hmap, List.map_map]; rfl
  have hmk : VMap.mk? (is.map fun p => (Key.var p.1, p.2)) (m.vars.map Prod.snd)
      = .ok (is.foldl (fun m p => m.setVar p.1 p.2) (VMap.empty (m.vars.map Prod.snd))) := by
    unfold VMap.mk?
    rw [List.foldlM_map]
    exact VMap.foldlM_set is _
  have hvars : byName (m.vars.map Prod.snd) = m.vars := by
    have key : ∀ (l d : List (String × Var P)), (∀ p ∈ l, p.2.name = p.1) → ((d ++ l).map Prod.fst).Nodup →
        (l.map Prod.snd).foldl (fun d v => Dict.set d v.name v) d = d ++ l := by
      intro l
      induction l with
      | nil => intro d _ _; simp
      | cons p l ih =>
        intro d hl hn
        rw [List.map_cons, List.foldl_cons, hl p List.mem_cons_self]
        have hp : p.1 ∉ d.map Prod.fst := by
          rw [List.map_append, List.nodup_append] at hn
          intro hd
          exact hn.2.2 p.1 hd p.1 (by simp) rfl
        have : Dict.set d p.1 p.2 = d ++ [p] := by
          unfold Dict.set; rw [if_neg hp]
        rw [this, ih (d ++ [p]) (fun q hq => hl q (List.mem_cons_of_mem _ hq)) (by simpa using hn)]
        simp
    exact key m.vars [] hm.names (by simpa using hm.vars)
  obtain ⟨g1, g2, g3⟩ := VMap.fold_setVar_spec is (by rw [hnames]; exact hm.map)
    (VMap.empty (m.vars.map Prod.snd) : VMap P A) (empty_wf _)
  refine ⟨is.foldl (fun m p => m.setVar p.1 p.2) (VMap.empty (m.vars.map Prod.snd)), ?_, ?_⟩
  · unfold VMap.copy
    rw [h1]
    simp only [bind, Except.bind, hmk]
  · apply View.ext'
    · intro n
      show (VMap.vars _).lookup n = m.vars.lookup n
      rw [g2]
      have e : (VMap.empty (m.vars.map Prod.snd) : VMap P A).vars = m.vars := hvars
      rw [e]
      cases hv : m.vars.lookup n with
      | some v => rfl
      | none =>
        rw [Option.none_or, Dict.lookup_none, List.map_map]
        have : (Prod.fst ∘ fun p : Var P × A => (p.1.name, p.1)) = fun p => p.1.name := rfl
        rw [this, hnames]
        intro hn
        exact Dict.lookup_none.1 hv (hm.declared n hn)
    · intro n
      show (VMap.map _).lookup n = m.map.lookup n
      rw [g3, hmap, Dict.lookup_update hm.map]
      simp [VMap.empty]
    · show (VMap.map _).map Prod.fst = m.map.map Prod.fst
      rw [g3, hmap, Dict.keys_update hm.map]
      simp [VMap.empty]

/-- An example history: two variables, one deleted and set again. -/
def exMap : VMap Unit ℕ := VMap.empty [⟨"a", ()⟩, ⟨"b", ()⟩]

example : exMap.WF := empty_wf _

example : ((exMap.run [.set (.name "b") 1, .set (.var ⟨"a", ()⟩) 2, .set (.name "b") 3, .del (.name "c"),
    .del (.name "b"), .set (.var ⟨"b", ()⟩) 4]).1.map,
    (exMap.run [.set (.name "b") 1, .set (.var ⟨"a", ()⟩) 2, .set (.name "b") 3, .del (.name "c"),
    .del (.name "b"), .set (.var ⟨"b", ()⟩) 4]).2)
    = ([("a", 2), ("b", 4)], [none, none, none, some .keyError, none, none]) := by decide +kernel

/-- C54 is violated: a variable given to the constructor, set and deleted, cannot be set by its name
again. -/
theorem C54_violated_reset :
    (exMap.run [.set (.name "b") 1, .del (.name "b"), .set (.name "b") 2]).2
      = [none, none, some .valueError] := by decide +kernel

/-- C54, partial: a deep copy holds the same if all values are numbers, strings, sets, lists or number
sets. -/
theorem C54_deepcopy_partial (kind : A → VMap.Kind) (m : VMap P A) (hm : m.WF)
    (hk : ∀ a ∈ m.values, kind a = .scalar ∨ kind a = .container) : m.deepcopy kind = m.copy := by
  unfold VMap.deepcopy VMap.copy VMap.mk?
  obtain ⟨is, h1, h2⟩ := VMap.items_ok hm
  rw [h1]
  simp only [bind, Except.bind]
  rw [List.foldlM_map]
  have : ∀ i ∈ is, kind i.2 = .scalar ∨ kind i.2 = .container := by
    intro i hi
    obtain ⟨p, hp, hpi⟩ := forall₂_mem_right h2 hi
    rw [hpi.2.2]
    exact hk _ (List.mem_map_of_mem hp)
  clear h1 h2
  generalize (VMap.empty (m.vars.map Prod.snd) : VMap P A) = c
  induction is generalizing c with
  | nil => rfl
  | cons i is ih =>
    rw [List.foldlM_cons, List.foldlM_cons]
    have hi := this i List.mem_cons_self
    have ih' := fun c => ih (fun j hj => this j (List.mem_cons_of_mem _ hj)) c
    rcases hi with hi | hi
    · simp only [hi]
      congr 1
      funext c
      exact ih' c
    · simp only [hi]
      congr 1
      funext c
      exact ih' c

/-- C54 is violated by deep copies: entries whose values are of another type are dropped, and a tuple
makes the copy fail. -/
theorem C54_violated_deepcopy :
    (do (← (exMap.set (.name "a") 1)).deepcopy fun _ => .other) = .ok exMap ∧
    (do (← (exMap.set (.name "a") 1)).deepcopy fun _ => .tuple) = .error .attributeError := by
  decide +kernel

/-- C54: two maps compare equal exactly if they hold the same values under the same names and have
the same variables; the order of insertion does not matter. -/
theorem C54_eq [DecidableEq P] [DecidableEq A] (m o : VMap P A) (hm : m.WF) (ho : o.WF) :
    m.eq o = true ↔ (∀ n, m.view.val n = o.view.val n) ∧ (∀ n, m.view.decl n = o.view.decl n) := by
  unfold VMap.eq
  rw [Bool.and_eq_true, Bool.and_eq_true, Bool.and_eq_true, decide_eq_true_eq, List.all_eq_true,
    List.all_eq_true, List.all_eq_true]
  simp only [decide_eq_true_eq]
  constructor
  · rintro ⟨⟨h1, h2⟩, h3, h4⟩
    refine ⟨?_, ?_⟩
    · have hsub : m.map.map Prod.fst ⊆ o.map.map Prod.fst := by
        intro n hn
        obtain ⟨p, hp, rfl⟩ := List.mem_map.1 hn
        exact Dict.lookup_isSome.1 ⟨_, h2 p hp⟩
      have hperm : (m.map.map Prod.fst).Perm (o.map.map Prod.fst) :=
        (List.subperm_of_subset hm.map hsub).perm_of_length_le (by simp [h1])
      intro n
      show m.map.lookup n = o.map.lookup n
      cases hl : m.map.lookup n with
      | some a => exact (h2 _ (Dict.lookup_mem hl)).symm
      | none =>
        rw [eq_comm, Dict.lookup_none]
        intro hn
        exact Dict.lookup_none.1 hl (hperm.symm.subset hn)
    · intro n
      show m.vars.lookup n = o.vars.lookup n
      have key : ∀ (a b : VMap P A), a.WF → b.WF → (∀ p ∈ a.vars, p.2 ∈ b.vars.map Prod.snd) →
          ∀ v, a.vars.lookup n = some v → b.vars.lookup n = some v := by
        intro a b ha hb hab v hv
        have hmem := Dict.lookup_mem hv
        obtain ⟨q, hq, hqe⟩ := List.mem_map.1 (hab _ hmem)
        have e1 : q.2.name = q.1 := hb.names q hq
        have e2 : v.name = n := ha.names _ hmem
        simp only at hqe
        have : q.1 = n := by rw [← e1, hqe, e2]
        rw [← hqe, ← this]
        exact Dict.mem_lookup hb.vars hq
      cases hl : m.vars.lookup n with
      | some v => exact (key m o hm ho h3 v hl).symm
      | none =>
        cases hl' : o.vars.lookup n with
        | none => rfl
        | some v => rw [key o m ho hm h4 v hl'] at hl; cases hl
  · rintro ⟨h1, h2⟩
    have hlook : ∀ (a b : VMap P A), a.WF → (∀ n, a.view.decl n = b.view.decl n) →
        ∀ p ∈ a.vars, p.2 ∈ b.vars.map Prod.snd := by
      intro a b ha hab p hp
      have : b.vars.lookup p.1 = some p.2 := by
        have e : a.vars.lookup p.1 = b.vars.lookup p.1 := hab p.1
        rw [← e]; exact Dict.mem_lookup ha.vars hp
      exact List.mem_map.2 ⟨_, Dict.lookup_mem this, rfl⟩
    refine ⟨⟨?_, ?_⟩, hlook m o hm h2, hlook o m ho fun n => (h2 n).symm⟩
    · have hperm : (m.map.map Prod.fst).Perm (o.map.map Prod.fst) := by
        rw [List.perm_ext_iff_of_nodup hm.map ho.map]
        intro n
        rw [← Dict.lookup_isSome, ← Dict.lookup_isSome]
        have e : m.map.lookup n = o.map.lookup n := h1 n
        rw [e]
      have := hperm.length_eq
      simpa using this
    · intro p hp
      have e : m.map.lookup p.1 = o.map.lookup p.1 := h1 p.1
      rw [← e]
      exact Dict.mem_lookup hm.map hp

/-- C54: a map written to JSON and read back, given the variables, holds the same values in the same
order, if its values survive serialisation. -/
theorem C54_json {J : Type} (f : A → J) (g : J → Except Err A) (m : VMap P A) (hm : m.WF)
    (vs : List (Var P))
    (hvs : ∀ n v, m.view.val n ≠ none → m.view.decl n = some v → v ∈ vs) (hdis : (vs.map Var.name).Nodup)
    (hfg : ∀ a ∈ m.values, g (f a) = .ok a) :
    ∃ j m', m.toJson f = .ok j ∧ VMap.fromJson g vs j = .ok m' ∧ m'.WF ∧
      (∀ n, m'.view.val n = m.view.val n) ∧ m'.view.order = m.view.order ∧
      ∀ n, m'.view.decl n = if m.view.val n = none then none else m.view.decl n := by
  obtain ⟨is, h1, h2⟩ := VMap.items_ok hm
  have hmap : (is.map fun p => (p.1.name, p.2)) = m.map := by
    clear h1
    generalize m.map = l at h2
    induction h2 with
    | nil => rfl
    | cons hp _ ih => rw [List.map_cons, hp.2.1, hp.2.2, ih]
  have hnames : (is.map fun p => p.1.name) = m.map.map Prod.fst := by
    rw [← hmap, List.map_map]; rfl
  have hj : is.foldl (fun d p => Dict.set d p.1.name (f p.2)) [] = is.map fun p => (p.1.name, f p.2) := by
    have key : ∀ (l : List (Var P × A)) (d : List (String × J)), (d.map Prod.fst ++ l.map fun p => p.1.name).Nodup →
        l.foldl (fun d p => Dict.set d p.1.name (f p.2)) d = d ++ l.map fun p => (p.1.name, f p.2) := by
      intro l
      induction l with
      | nil => intro d _; simp
      | cons p l ih =>
        intro d hn
        rw [List.foldl_cons]
        have hp : p.1.name ∉ d.map Prod.fst := by
          rw [List.nodup_append] at hn
          intro hd
          exact hn.2.2 _ hd _ (by simp) rfl
        have : Dict.set d p.1.name (f p.2) = d ++ [(p.1.name, f p.2)] := by
          unfold Dict.set; rw [if_neg hp]
        rw [this, ih _ (by simpa using hn)]
        simp
    refine (key is [] ?_).trans (by simp)
    rw [List.map_nil, List.nil_append, hnames]
    exact hm.map
  have hby : ∀ v ∈ vs, (byName vs).lookup v.name = some v := by
    have key : ∀ (l : List (Var P)) (d : List (String × Var P)), (l.map Var.name).Nodup →
        ∀ n, (l.foldl (fun d v => Dict.set d v.name v) d).lookup n
          = ((l.map fun v => (v.name, v)).lookup n).or (d.lookup n) := by
      intro l d hl n
      have e : l.foldl (fun d v => Dict.set d v.name v) d = Dict.update d (l.map fun v => (v.name, v)) := by
        unfold Dict.update
        rw [List.foldl_map]
      rw [e]
      apply Dict.lookup_update
      unfold Dict.WF
      rw [List.map_map]
      exact hl
    intro v hv
    unfold byName
    rw [key vs [] hdis]
    rw [Dict.mem_lookup (d := vs.map fun v => (v.name, v)) (k := v.name) (b := v) _ (List.mem_map.2 ⟨v, hv, rfl⟩)]
    · rfl
    · unfold Dict.WF
      rw [List.map_map]
      exact hdis
  have hread : ∀ i ∈ is, (byName vs).lookup i.1.name = some i.1 ∧ g (f i.2) = .ok i.2 := by
    intro i hi
    obtain ⟨p, hp, hpi⟩ := forall₂_mem_right h2 hi
    refine ⟨hby _ (hvs p.1 _ (fun e => VMap.view_val_none.1 e (List.mem_map_of_mem hp)) hpi.1), ?_⟩
    rw [hpi.2.2]
    exact hfg _ (List.mem_map_of_mem hp)
  have hfrom : VMap.fromJson g vs (is.map fun p => (p.1.name, f p.2))
      = .ok (is.foldl (fun m p => m.setVar p.1 p.2) (VMap.empty [])) := by
    unfold VMap.fromJson
    rw [List.foldlM_map]
    clear h1 h2 hmap hnames hj
    generalize (VMap.empty [] : VMap P A) = c
    induction is generalizing c with
    | nil => rfl
    | cons i is ih =>
      obtain ⟨r1, r2⟩ := hread i List.mem_cons_self
      rw [List.foldlM_cons, List.foldl_cons, ← ih (fun j hj => hread j (List.mem_cons_of_mem _ hj))]
      have r1' : Dict.get (vs.foldl (fun d v => Dict.set d v.name v) []) i.1.name = .ok i.1 := by
        unfold Dict.get
        have : (vs.foldl (fun d v => Dict.set d v.name v) []).lookup i.1.name = some i.1 := r1
        rw [this]
      simp only [r1', r2, bind, Except.bind, VMap.set]
  obtain ⟨g1, g2, g3⟩ := VMap.fold_setVar_spec is (by rw [hnames]; exact hm.map)
    (VMap.empty [] : VMap P A) (empty_wf _)
  refine ⟨_, _, ?_, hfrom, g1, ?_, ?_, ?_⟩
  · unfold VMap.toJson
    rw [h1]
    simp only [bind, Except.bind, pure, Except.pure, hj]
  · intro n
    show (VMap.map _).lookup n = m.map.lookup n
    rw [g3, hmap, Dict.lookup_update hm.map]
    simp [VMap.empty]
  · show (VMap.map _).map Prod.fst = m.map.map Prod.fst
    rw [g3, hmap, Dict.keys_update hm.map]
    simp [VMap.empty]
  · intro n
    show (VMap.vars _).lookup n = if m.view.val n = none then none else m.vars.lookup n
    rw [g2]
    have e : (VMap.empty [] : VMap P A).vars.lookup n = none := rfl
    rw [e, Option.none_or]
    by_cases hn : n ∈ m.map.map Prod.fst
    · rw [if_neg (fun e => VMap.view_val_none.1 e hn)]
      rw [← hnames] at hn
      obtain ⟨i, hi, rfl⟩ := List.mem_map.1 hn
      obtain ⟨p, hp, hpi⟩ := forall₂_mem_right h2 hi
      rw [Dict.mem_lookup (d := is.map fun p => (p.1.name, p.1)) (k := i.1.name) (b := i.1) _ (List.mem_map.2 ⟨i, hi, rfl⟩), ← hpi.1, hpi.2.1]
      unfold Dict.WF
      rw [List.map_map]
      have : (Prod.fst ∘ fun p : Var P × A => (p.1.name, p.1)) = fun p => p.1.name := rfl
      rw [this, hnames]
      exact hm.map
    · rw [if_pos (VMap.view_val_none.2 hn), Dict.lookup_none, List.map_map]
      have : (Prod.fst ∘ fun p : Var P × A => (p.1.name, p.1)) = fun p => p.1.name := rfl
      rw [this, hnames]
      exact hn

example : (do VMap.fromJson (fun x => .ok x) [⟨"a", ()⟩, ⟨"b", ()⟩] (← (← exMap.set (.name "b") 1).toJson id))
    = .ok (⟨[("b", ⟨"b", ()⟩)], [("b", 1)]⟩ : VMap Unit ℕ) := by decide +kernel

example : (exMap.set (.name "b") 1).map (fun m => m.eq exMap) = .ok false := by decide +kernel

end Verif.Vars
