import Verif.Vars.Spec
import Verif.ListAux

/-! # Lemmas on variable maps -/

set_option linter.unusedSectionVars false

namespace Verif.Vars

variable {P A : Type}

open Verif

theorem View.ext' {w u : View P A} (h1 : ∀ n, w.decl n = u.decl n) (h2 : ∀ n, w.val n = u.val n)
    (h3 : w.order = u.order) : w = u := by
  obtain ⟨a, b, c⟩ := w
  obtain ⟨d, e, f⟩ := u
  simp only at h1 h2 h3
  rw [funext h1, funext h2, h3]

/-- The dictionary of the variables by name. -/
def byName (vs : List (Var P)) : List (String × Var P) :=
  vs.foldl (fun d v => Dict.set d v.name v) []

theorem mem_set {K B : Type} [DecidableEq K] {d : List (K × B)} {k : K} {b : B} {p : K × B}
    (h : p ∈ Dict.set d k b) : p ∈ d ∨ p = (k, b) := by
  unfold Dict.set at h
  split_ifs at h with hk
  · obtain ⟨q, hq, rfl⟩ := List.mem_map.1 h
    split_ifs with he
    · right; rw [he]
    · left; exact hq
  · rcases List.mem_append.1 h with h | h
    · left; exact h
    · right; simpa using h

theorem byName_wf (vs : List (Var P)) :
    ((byName vs).map Prod.fst).Nodup ∧ (∀ p ∈ byName vs, p.2.name = p.1) := by
  unfold byName
  have key : ∀ (l : List (Var P)) (d : List (String × Var P)), Dict.WF d → (∀ p ∈ d, p.2.name = p.1) →
      Dict.WF (l.foldl (fun d v => Dict.set d v.name v) d) ∧
      ∀ p ∈ l.foldl (fun d v => Dict.set d v.name v) d, p.2.name = p.1 := by
    intro l
    induction l with
    | nil => intro d h1 h2; exact ⟨h1, h2⟩
    | cons v l ih =>
      intro d h1 h2
      refine ih _ (Dict.wf_set h1 _ _) ?_
      intro p hp
      rcases mem_set hp with hp | rfl
      · exact h2 p hp
      · rfl
  exact key vs [] (by simp [Dict.WF]) (by simp)

theorem empty_wf (vs : List (Var P)) : (VMap.empty vs : VMap P A).WF :=
  ⟨(byName_wf vs).1, by simp [VMap.empty], (byName_wf vs).2, by simp [VMap.empty]⟩

namespace VMap

theorem view_decl_none {m : VMap P A} {n : String} :
    m.view.decl n = none ↔ n ∉ m.vars.map Prod.fst := Dict.lookup_none

theorem view_val_none {m : VMap P A} {n : String} :
    m.view.val n = none ↔ n ∉ m.map.map Prod.fst := Dict.lookup_none

theorem setVar_wf {m : VMap P A} (h : m.WF) (v : Var P) (a : A) : (m.setVar v a).WF := by
  unfold setVar
  refine ⟨?_, Dict.wf_set h.map _ _, ?_, ?_⟩
  · show ((if v.name ∈ m.vars.map Prod.fst then m.vars else Dict.set m.vars v.name v).map Prod.fst).Nodup
    split_ifs
    · exact h.vars
    · exact Dict.wf_set h.vars _ _
  · show ∀ p ∈ (if v.name ∈ m.vars.map Prod.fst then m.vars else Dict.set m.vars v.name v), p.2.name = p.1
    split_ifs
    · exact h.names
    · intro p hp
      rcases mem_set hp with hp | rfl
      · exact h.names p hp
      · rfl
  · intro n hn
    have hn' : n ∈ (Dict.set m.map v.name a).map Prod.fst := hn
    rw [Dict.keys_set] at hn'
    have : n ∈ m.map.map Prod.fst ∨ n = v.name := by
      split_ifs at hn'
      · exact Or.inl hn'
      · simpa using hn'
    show n ∈ (if v.name ∈ m.vars.map Prod.fst then m.vars else Dict.set m.vars v.name v).map Prod.fst
    split_ifs with hc
    · rcases this with h' | rfl
      · exact h.declared n h'
      · exact hc
    · rw [Dict.keys_set, if_neg hc, List.mem_append, List.mem_singleton]
      rcases this with h' | rfl
      · exact Or.inl (h.declared n h')
      · exact Or.inr rfl

theorem setVar_view (m : VMap P A) (v : Var P) (a : A) :
    (m.setVar v a).view = ⟨if m.view.decl v.name = none then Function.update m.view.decl v.name (some v)
      else m.view.decl, Function.update m.view.val v.name (some a), View.touch m.view.order v.name⟩ := by
  apply View.ext'
  · intro n
    show (if v.name ∈ m.vars.map Prod.fst then m.vars else Dict.set m.vars v.name v).lookup n = _
    by_cases hc : v.name ∈ m.vars.map Prod.fst
    · rw [if_pos hc]
      have : ¬ m.view.decl v.name = none := fun e => view_decl_none.1 e hc
      simp only [this, if_false]
      rfl
    · rw [if_neg hc, Dict.lookup_set]
      have : m.view.decl v.name = none := view_decl_none.2 hc
      simp only [this, if_true, Function.update_apply]
      rfl
  · intro n
    show (Dict.set m.map v.name a).lookup n = _
    rw [Dict.lookup_set]
    simp only [Function.update_apply]
    rfl
  · show (Dict.set m.map v.name a).map Prod.fst = _
    rw [Dict.keys_set]
    rfl

theorem set_spec {m : VMap P A} (h : m.WF) (k : Key P) (a : A) :
    (m.set k a).map view = m.view.set k a ∧ ∀ m', m.set k a = .ok m' → m'.WF := by
  cases k with
  | name n =>
    unfold set View.set
    cases hv : m.vars.lookup n with
    | none =>
      have : m.view.decl n = none := hv
      simp [hv, this, Except.map]
    | some v =>
      have hd : m.view.decl n = some v := hv
      have hn : v.name = n := h.names _ (Dict.lookup_mem hv)
      simp only [hv, hd, Except.map, reduceCtorEq, if_false]
      refine ⟨?_, ?_⟩
      · rw [setVar_view, hn, hd]; simp
      · rintro m' e; cases e; exact setVar_wf h v a
  | var v =>
    refine ⟨?_, ?_⟩
    · show Except.ok _ = Except.ok _
      rw [setVar_view]
    · rintro m' e; cases e; exact setVar_wf h v a
  | other => exact ⟨rfl, fun m' e => by cases e⟩

theorem delName_spec {m : VMap P A} (h : m.WF) (n : String) :
    (m.delName n).map view = m.view.del (.name n) ∧ ∀ m', m.delName n = .ok m' → m'.WF := by
  unfold delName View.del
  simp only [Key.target]
  by_cases hm : n ∈ m.map.map Prod.fst
  · have hv := h.declared n hm
    have : ¬ m.view.val n = none := fun e => view_val_none.1 e hm
    simp only [Dict.del, if_pos hm, if_pos hv, bind, Except.bind, pure, Except.pure, this, if_false,
      Except.map]
    refine ⟨?_, ?_⟩
    · congr 1
      apply View.ext'
      · intro j
        show (m.vars.filter _).lookup j = _
        rw [Dict.lookup_filter]
        simp only [Function.update_apply]
        rfl
      · intro j
        show (m.map.filter _).lookup j = _
        rw [Dict.lookup_filter]
        simp only [Function.update_apply]
        rfl
      · show (m.map.filter _).map Prod.fst = _
        rw [Dict.keys_filter]
        rfl
    · rintro m' e
      cases e
      refine ⟨Dict.wf_filter h.vars n, Dict.wf_filter h.map n, ?_, ?_⟩
      · intro p hp
        exact h.names p (List.mem_of_mem_filter hp)
      · intro j hj
        have hj' : j ∈ (m.map.filter fun p => decide (p.1 ≠ n)).map Prod.fst := hj
        show j ∈ (m.vars.filter fun p => decide (p.1 ≠ n)).map Prod.fst
        rw [Dict.keys_filter, List.mem_filter] at *
        exact ⟨h.declared j hj'.1, hj'.2⟩
  · have : m.view.val n = none := view_val_none.2 hm
    simp [Dict.del, hm, this, Except.map, bind, Except.bind]

theorem del_spec {m : VMap P A} (h : m.WF) (k : Key P) :
    (m.del k).map view = m.view.del k ∧ ∀ m', m.del k = .ok m' → m'.WF := by
  cases k with
  | name n => exact delName_spec h n
  | var v => exact delName_spec h v.name
  | other => exact ⟨rfl, fun m' e => by cases e⟩

theorem update_spec {m o : VMap P A} (h : m.WF) (ho : o.WF) :
    (m.update o).view = m.view.update o.view ∧ (m.update o).WF := by
  refine ⟨View.ext' ?_ ?_ ?_, Dict.wf_update h.vars, Dict.wf_update h.map, ?_, ?_⟩
  · intro n; exact Dict.lookup_update ho.vars n
  · intro n; exact Dict.lookup_update ho.map n
  · exact Dict.keys_update ho.map
  · intro p hp
    have hw : Dict.WF (Dict.update m.vars o.vars) := Dict.wf_update h.vars
    have hl := Dict.mem_lookup hw (show (p.1, p.2) ∈ Dict.update m.vars o.vars from hp)
    rw [Dict.lookup_update ho.vars] at hl
    rcases Option.or_eq_some_iff.1 hl with hl | ⟨-, hl⟩
    · exact ho.names _ (Dict.lookup_mem hl)
    · exact h.names _ (Dict.lookup_mem hl)
  · intro n hn
    have hn' : n ∈ (Dict.update m.map o.map).map Prod.fst := hn
    show n ∈ (Dict.update m.vars o.vars).map Prod.fst
    rw [Dict.keys_update ho.map] at hn'
    rw [Dict.keys_update ho.vars]
    rw [List.mem_append, List.mem_filter] at *
    by_cases hc : n ∈ m.vars.map Prod.fst
    · exact Or.inl hc
    · right
      rcases hn' with hn' | ⟨hn', -⟩
      · exact absurd (h.declared n hn') hc
      · exact ⟨ho.declared n hn', by simpa using hc⟩

/-- The variable declared for an assigned name. -/
def varOf (m : VMap P A) (n : String) : Option (Var P) := m.vars.lookup n

theorem varOf_some {m : VMap P A} (h : m.WF) {p : String × A} (hp : p ∈ m.map) :
    ∃ v, m.vars.lookup p.1 = some v ∧ v.name = p.1 := by
  obtain ⟨v, hv⟩ := Dict.lookup_isSome.2 (h.declared p.1 (List.mem_map_of_mem hp))
  exact ⟨v, hv, h.names _ (Dict.lookup_mem hv)⟩

theorem items_ok {m : VMap P A} (h : m.WF) : ∃ is, m.items = .ok is ∧
    List.Forall₂ (fun p i => m.vars.lookup p.1 = some i.1 ∧ i.1.name = p.1 ∧ i.2 = p.2) m.map is := by
  have : ∀ p ∈ m.map, ∃ v, m.vars.lookup p.1 = some v ∧ v.name = p.1 := fun p hp => varOf_some h hp
  unfold items
  generalize hl : m.map = l at this
  clear hl
  induction l with
  | nil => exact ⟨[], rfl, List.Forall₂.nil⟩
  | cons p l ih =>
    obtain ⟨is, h1, h2⟩ := ih fun q hq => this q (List.mem_cons_of_mem _ hq)
    obtain ⟨v, hv, hn⟩ := this p List.mem_cons_self
    refine ⟨(v, p.2) :: is, ?_, List.Forall₂.cons ⟨hv, hn, rfl⟩ h2⟩
    rw [List.mapM_cons, h1]
    simp only [Dict.get, hv]
    rfl

theorem keys_ok {m : VMap P A} (h : m.WF) : ∃ ks, m.keys = .ok ks ∧
    List.Forall₂ (fun p k => m.vars.lookup p.1 = some k ∧ k.name = p.1) m.map ks := by
  have : ∀ p ∈ m.map, ∃ v, m.vars.lookup p.1 = some v ∧ v.name = p.1 := fun p hp => varOf_some h hp
  unfold keys
  generalize hl : m.map = l at this
  clear hl
  induction l with
  | nil => exact ⟨[], rfl, List.Forall₂.nil⟩
  | cons p l ih =>
    obtain ⟨is, h1, h2⟩ := ih fun q hq => this q (List.mem_cons_of_mem _ hq)
    obtain ⟨v, hv, hn⟩ := this p List.mem_cons_self
    refine ⟨v :: is, ?_, List.Forall₂.cons ⟨hv, hn⟩ h2⟩
    rw [List.mapM_cons, h1]
    simp only [Dict.get, hv]
    rfl

/-- Setting a list of items by variable. -/
theorem foldlM_set (is : List (Var P × A)) (m : VMap P A) :
    is.foldlM (fun m p => m.set (.var p.1) p.2) m
      = Except.ok (is.foldl (fun m p => m.setVar p.1 p.2) m) := by
  induction is generalizing m with
  | nil => rfl
  | cons p is ih =>
    rw [List.foldlM_cons, List.foldl_cons]
    exact ih _

theorem fold_setVar_spec (is : List (Var P × A)) (hn : (is.map fun p => p.1.name).Nodup)
    (m : VMap P A) (h : m.WF) :
    (is.foldl (fun m p => m.setVar p.1 p.2) m).WF ∧
    (∀ n, (is.foldl (fun m p => m.setVar p.1 p.2) m).vars.lookup n
      = (m.vars.lookup n).or ((is.map fun p => (p.1.name, p.1)).lookup n)) ∧
    (is.foldl (fun m p => m.setVar p.1 p.2) m).map
      = Dict.update m.map (is.map fun p => (p.1.name, p.2)) := by
  induction is generalizing m with
  | nil => exact ⟨h, by simp, rfl⟩
  | cons p is ih =>
    rw [List.map_cons, List.nodup_cons] at hn
    obtain ⟨h1, h2, h3⟩ := ih hn.2 (m.setVar p.1 p.2) (setVar_wf h _ _)
    refine ⟨h1, ?_, ?_⟩
    · intro n
      rw [List.foldl_cons, h2, List.map_cons, List.lookup_cons]
      have hv := congrArg (fun w => View.decl w n) (setVar_view m p.1 p.2)
      have hv' : (m.setVar p.1 p.2).vars.lookup n = (if m.vars.lookup p.1.name = none
          then Function.update (fun n => m.vars.lookup n) p.1.name (some p.1)
          else fun n => m.vars.lookup n) n := hv
      rw [hv']
      by_cases hnp : n = p.1.name
      · subst hnp
        simp only [beq_self_eq_true]
        cases hl : m.vars.lookup p.1.name with
        | none => simp
        | some v => simp [hl]
      · have hb : (n == p.1.name) = false := by simpa using hnp
        simp only [hb]
        split_ifs <;> simp [hnp]
    · rw [List.foldl_cons, h3]
      rfl

theorem iadd_spec {m o : VMap P A} (h : m.WF) (ho : o.WF) :
    ∃ m', m.iadd o = .ok m' ∧ m'.view = m.view.iadd o.view ∧ m'.WF := by
  obtain ⟨is, h1, h2⟩ := items_ok ho
  have hmap : (is.map fun p => (p.1.name, p.2)) = o.map := by
    clear h1
    generalize o.map = l at h2
    induction h2 with
    | nil => rfl
    | cons hp _ ih => rw [List.map_cons, hp.2.1, hp.2.2, ih]
  have hnames : (is.map fun p => p.1.name) = o.map.map Prod.fst := by
    rw [← hmap, List.map_map]; rfl
  obtain ⟨g1, g2, g3⟩ := fold_setVar_spec is (by rw [hnames]; exact ho.map) m h
  refine ⟨is.foldl (fun m p => m.setVar p.1 p.2) m, ?_, View.ext' ?_ ?_ ?_, g1⟩
  · unfold iadd
    rw [h1]
    simp only [bind, Except.bind, foldlM_set]
  · intro n
    show (is.foldl (fun m p => m.setVar p.1 p.2) m).vars.lookup n = _
    rw [g2]
    show (m.vars.lookup n).or _ = (m.vars.lookup n).or _
    congr 1
    show _ = if (o.map.lookup n).isSome then o.vars.lookup n else none
    clear g1 g2 g3 h1 hmap hnames
    generalize o.map = l at h2
    induction h2 with
    | nil => simp
    | @cons p i l l' hp _ ih =>
      rw [List.map_cons, List.lookup_cons]
      obtain ⟨k, b⟩ := p
      rw [List.lookup_cons]
      simp only at hp
      by_cases hk : n = k
      · subst hk
        simp [hp.2.1, hp.1]
      · have hb : (n == k) = false := by simpa using hk
        simp only [hp.2.1, hb]
        exact ih
  · intro n
    show (is.foldl (fun m p => m.setVar p.1 p.2) m).map.lookup n = _
    rw [g3, hmap]
    exact Dict.lookup_update ho.map n
  · show (is.foldl (fun m p => m.setVar p.1 p.2) m).map.map Prod.fst = _
    rw [g3, hmap]
    exact Dict.keys_update ho.map

theorem isub_spec {m o : VMap P A} (h : m.WF) (ho : o.WF) :
    ∃ m', m.isub o = .ok m' ∧ m'.view = m.view.isub o.view ∧ m'.WF := by
  obtain ⟨ks, h1, h2⟩ := keys_ok ho
  have hnames : ks.map Var.name = o.map.map Prod.fst := by
    clear h1
    generalize o.map = l at h2
    induction h2 with
    | nil => rfl
    | cons hp _ ih => rw [List.map_cons, List.map_cons, hp.2, ih]
  have key : ∀ (ks : List (Var P)) (m : VMap P A), m.WF → ∃ m',
      ks.foldlM (fun m v => if m.contains (.var v) then m.del (.var v) else .ok m) m = Except.ok m' ∧
      m'.WF ∧ m'.view = ⟨fun n => if (m.view.val n).isSome ∧ n ∈ ks.map Var.name then none else m.view.decl n,
        fun n => if n ∈ ks.map Var.name then none else m.view.val n,
        m.view.order.filter (fun n => n ∉ ks.map Var.name)⟩ := by
    intro ks
    induction ks with
    | nil =>
      intro m hm
      refine ⟨m, rfl, hm, View.ext' (by simp) (by simp) ?_⟩
      simp
    | cons v ks ih =>
      intro m hm
      rw [List.foldlM_cons]
      by_cases hc : v.name ∈ m.map.map Prod.fst
      · have hcont : m.contains (.var v) = true := by simpa [contains] using hc
        simp only [hcont, if_true]
        have hv : ¬ m.view.val v.name = none := fun e => view_val_none.1 e hc
        obtain ⟨d1, d2⟩ := del_spec hm (.var v)
        cases hd : m.del (.var v) with
        | error e =>
          rw [hd] at d1
          simp [View.del, Key.target, hv, Except.map] at d1
        | ok m1 =>
          rw [hd] at d1
          simp only [View.del, Key.target, hv, if_false, Except.map, Except.ok.injEq] at d1
          obtain ⟨m', e1, e2, e3⟩ := ih m1 (d2 m1 hd)
          refine ⟨m', ?_, e2, ?_⟩
          · simp only [bind, Except.bind]; exact e1
          · rw [e3, d1]
            apply View.ext'
            · intro n
              simp only [Function.update_apply, List.map_cons, List.mem_cons]
              by_cases hn : n = v.name
              · subst hn
                have : (m.view.val v.name).isSome := Option.isSome_iff_ne_none.2 hv
                simp [this]
              · simp [hn]
            · intro n
              simp only [Function.update_apply, List.map_cons, List.mem_cons]
              by_cases hn : n = v.name <;> simp [hn]
            · simp only [List.filter_filter, List.map_cons, List.mem_cons, not_or]
              apply List.filter_congr
              intro n _
              by_cases hn : n = v.name <;> simp [hn]
      · have hcont : m.contains (.var v) = false := by simpa [contains] using hc
        simp only [hcont, Bool.false_eq_true, if_false]
        have hv : m.view.val v.name = none := view_val_none.2 hc
        obtain ⟨m', e1, e2, e3⟩ := ih m hm
        refine ⟨m', ?_, e2, ?_⟩
        · simp only [bind, Except.bind]; exact e1
        · rw [e3]
          apply View.ext'
          · intro n
            simp only [List.map_cons, List.mem_cons]
            by_cases hn : n = v.name
            · subst hn; simp [hv]
            · simp [hn]
          · intro n
            simp only [List.map_cons, List.mem_cons]
            by_cases hn : n = v.name
            · subst hn; simp [hv]
            · simp [hn]
          · simp only [List.map_cons, List.mem_cons, not_or]
            apply List.filter_congr
            intro n hn
            have : n ≠ v.name := fun e => hc (e ▸ hn)
            simp [this]
  obtain ⟨m', e1, e2, e3⟩ := key ks m h
  refine ⟨m', ?_, ?_, e2⟩
  · unfold isub; rw [h1]; exact e1
  · rw [e3, hnames]
    have hiff : ∀ n, n ∈ o.map.map Prod.fst ↔ (o.view.val n).isSome := by
      intro n
      rw [Option.isSome_iff_ne_none, ne_eq, view_val_none, Classical.not_not]
    apply View.ext'
    · intro n; simp only [hiff]; rfl
    · intro n; simp only [hiff]; rfl
    · show _ = m.view.order.filter _
      apply List.filter_congr
      intro n _
      simp only [hiff]
      cases o.view.val n <;> simp

end VMap

end Verif.Vars
