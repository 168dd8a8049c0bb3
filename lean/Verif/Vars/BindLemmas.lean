import Verif.Vars.BindSpec
import Verif.Vars.Lemmas
import Verif.Utils.Props
import Verif.ListAux

/-!
# Lemmas about `JPT.bind`
-/

namespace Verif.Vars

open Trees (RIMem)

theorem resolve_iff {vs : List (Var Domain)} (hvs : (vs.map Var.name).Nodup) {k : Key Domain} {v : Var Domain} :
    resolve vs k = some v ↔ Named vs k v := by
  cases k with
  | var w =>
    simp only [resolve, Named, Option.some.injEq, Key.var.injEq, reduceCtorEq, false_and, or_false]
  | other => simp [resolve, Named]
  | name s =>
    have key : ∀ (l : List (Var Domain)) (d : List (String × Var Domain)), (l.map Var.name).Nodup →
        ((l.foldl (fun d v => Dict.set d v.name v) d).lookup s = some v ↔
          (v ∈ l ∧ v.name = s) ∨ (s ∉ l.map Var.name ∧ d.lookup s = some v)) := by
      intro l
      induction l with
      | nil => intro d _; simp
      | cons w l ih =>
        intro d hn
        rw [List.map_cons, List.nodup_cons] at hn
        rw [List.foldl_cons, ih _ hn.2, Dict.lookup_set]
        by_cases hs : s = w.name
        · subst hs
          rw [if_pos rfl]
          constructor
          · rintro (⟨h1, h2⟩ | ⟨h1, h2⟩)
            · exact absurd (List.mem_map.2 ⟨v, h1, h2⟩) hn.1
            · cases h2
              exact .inl ⟨by simp, rfl⟩
          · rintro (⟨h1, h2⟩ | ⟨h1, -⟩)
            · rcases List.mem_cons.1 h1 with rfl | h1
              · exact .inr ⟨hn.1, rfl⟩
              · exact absurd (List.mem_map.2 ⟨v, h1, h2⟩) hn.1
            · simp at h1
        · rw [if_neg hs]
          simp only [List.map_cons, List.mem_cons, not_or]
          constructor
          · rintro (⟨h1, h2⟩ | ⟨h1, h2⟩)
            · exact .inl ⟨.inr h1, h2⟩
            · exact .inr ⟨⟨hs, h1⟩, h2⟩
          · rintro (⟨rfl | h1, h2⟩ | ⟨⟨-, h1⟩, h2⟩)
            · exact absurd h2.symm hs
            · exact .inl ⟨h1, h2⟩
            · exact .inr ⟨h1, h2⟩
    simp only [resolve, Named, reduceCtorEq, false_or, Key.name.injEq]
    rw [key vs [] hvs]
    simp only [List.lookup_nil, reduceCtorEq, and_false, or_false]
    constructor
    · rintro ⟨h1, h2⟩; exact ⟨h2.symm, h1⟩
    · rintro ⟨h1, h2⟩; exact ⟨h2, h1.symm⟩

theorem mem_closed {l u x : XQ} : RIMem ⟨l, u, .inc, .inc⟩ x ↔ l ≤ x ∧ x ≤ u := by
  unfold RIMem
  simp only [and_true]
  rw [le_iff_lt_or_eq, le_iff_lt_or_eq]

theorem mk_ok {l u : XQ} {a b : Iv.Br} {c : RI} : RI.mk? l u a b = .ok c ↔ l ≤ u ∧ c = ⟨l, u, a, b⟩ := by
  unfold RI.mk?
  have : (l ≤ u) = (l.le u = true) := rfl
  rw [this]
  by_cases h : l.le u = true
  · rw [if_pos h]
    simp only [Except.ok.injEq, h, true_and]
    exact eq_comm
  · rw [if_neg h]
    simp [h]

theorem boundOf_ok {inf : XQ} {a : Option Atom} {x : XQ} :
    boundOf inf a = .ok x ↔ (a = some (.num x) ∨ a = none ∧ x = inf) := by
  cases a with
  | none => simp [boundOf, eq_comm]
  | some a =>
    cases a with
    | num y => simp [boundOf]
    | str s => simp [boundOf]

theorem list2interval_ok {l : List (Option Atom)} {c : RI} : list2interval l = .ok c ↔
    ∃ a b x y, l = [a, b] ∧ boundOf .ninf a = .ok x ∧ boundOf .pinf b = .ok y ∧ x ≤ y ∧ c = ⟨x, y, .inc, .inc⟩ := by
  unfold list2interval
  split
  · rename_i a b
    simp only [bind, Except.bind]
    cases ha : boundOf .ninf a with
    | error e => simp only [reduceCtorEq, false_iff]; rintro ⟨_, _, _, _, h1, h2, -⟩; cases h1; rw [ha] at h2; cases h2
    | ok x =>
      cases hb : boundOf .pinf b with
      | error e =>
        simp only [reduceCtorEq, false_iff]; rintro ⟨_, _, _, _, h1, -, h2, -⟩; cases h1; rw [hb] at h2; cases h2
      | ok y =>
        simp only [mk_ok]
        constructor
        · rintro ⟨h1, h2⟩
          exact ⟨a, b, x, y, rfl, ha, hb, h1, h2⟩
        · rintro ⟨a', b', x', y', h1, h2, h3, h4, h5⟩
          cases h1
          rw [ha] at h2
          rw [hb] at h3
          cases h2
          cases h3
          exact ⟨h4, h5⟩
  · rename_i hno
    simp only [reduceCtorEq, false_iff]
    rintro ⟨a, b, _, _, rfl, -⟩
    exact hno a b rfl

theorem between_iff {a b : Option Atom} {x y : XQ} (ha : boundOf .ninf a = .ok x) (hb : boundOf .pinf b = .ok y) (z : XQ) :
    Between a b z ↔ x ≤ z ∧ z ≤ y := by
  unfold Between
  rcases boundOf_ok.1 ha with rfl | ⟨rfl, rfl⟩ <;> rcases boundOf_ok.1 hb with rfl | ⟨rfl, rfl⟩ <;> simp

theorem int_inj {a b : ℤ} : Atom.int a = Atom.int b ↔ a = b := by
  unfold Atom.int
  simp

theorem asInt_ok {a : Option Atom} {z : ℤ} : asInt a = .ok z ↔ a = some (.int z) := by
  unfold asInt
  split
  · rename_i q
    by_cases h : q.den = 1
    · rw [if_pos h]
      simp only [Except.ok.injEq, Option.some.injEq, Atom.int, Atom.num.injEq, XQ.fin.injEq]
      constructor
      · rintro rfl; exact ((Rat.den_eq_one_iff q).1 h).symm
      · rintro rfl; simp
    · rw [if_neg h]
      simp only [reduceCtorEq, Option.some.injEq, Atom.int, Atom.num.injEq, XQ.fin.injEq, false_iff]
      rintro rfl
      simp at h
  · rename_i hno
    simp only [reduceCtorEq, false_iff]
    rintro rfl
    exact hno _ rfl

theorem list2intset_ok {l : List (Option Atom)} {r : List Atom} (h : list2intset l = .ok r) :
    ∃ a b : ℤ, l = [some (.int a), some (.int b)] ∧ ∀ x, x ∈ r ↔ ∃ z : ℤ, x = .int z ∧ a ≤ z ∧ z ≤ b := by
  unfold list2intset at h
  split_ifs at h with h1
  · cases h
  · simp only [bind, Except.bind, pure, Except.pure] at h
    obtain ⟨a, b, rfl⟩ : ∃ a b, l = [a, b] := by
      match l, not_not.1 h1 with
      | [a, b], _ => exact ⟨a, b, rfl⟩
    cases h2 : [a, b].mapM asInt with
    | error e => rw [h2] at h; cases h
    | ok ints =>
      have h3 := (mapM_ok_iff _ _ _).1 h2
      obtain ⟨x, t, hx, ht, rfl⟩ := List.forall₂_cons_left_iff.1 h3
      obtain ⟨y, t', hy, ht', rfl⟩ := List.forall₂_cons_left_iff.1 ht
      cases ht'
      rw [h2] at h
      obtain ⟨s, h4, -, h5⟩ := (Ut.C22_list2intset [x, y]).2 x y rfl
      simp only [h4, Except.ok.injEq] at h
      refine ⟨x, y, by rw [asInt_ok.1 hx, asInt_ok.1 hy], fun a => ?_⟩
      rw [← h, List.mem_map]
      constructor
      · rintro ⟨z, hz, rfl⟩
        exact ⟨z, rfl, (h5 z).1 hz⟩
      · rintro ⟨z, rfl, hz⟩
        exact ⟨z, (h5 z).2 hz, rfl⟩

theorem list2intset_nodup {l : List (Option Atom)} {r : List Atom} (h : list2intset l = .ok r) : r.Nodup := by
  unfold list2intset at h
  split_ifs at h with h1
  · cases h
  · simp only [bind, Except.bind, pure, Except.pure] at h
    obtain ⟨a, b, rfl⟩ : ∃ a b, l = [a, b] := by
      match l, not_not.1 h1 with
      | [a, b], _ => exact ⟨a, b, rfl⟩
    cases h2 : [a, b].mapM asInt with
    | error e => rw [h2] at h; cases h
    | ok ints =>
      have h3 := (mapM_ok_iff _ _ _).1 h2
      obtain ⟨x, t, hx, ht, rfl⟩ := List.forall₂_cons_left_iff.1 h3
      obtain ⟨y, t', hy, ht', rfl⟩ := List.forall₂_cons_left_iff.1 ht
      cases ht'
      rw [h2] at h
      obtain ⟨s, h4, h6, -⟩ := (Ut.C22_list2intset [x, y]).2 x y rfl
      simp only [h4, Except.ok.injEq] at h
      rw [← h]
      exact h6.map (fun a b e => int_inj.1 e)

/-- What is assigned has exactly the labels that the user describes. -/
theorem prepare_meaning {singular : Bool} {d : Domain} {u : UArg} {x : Val} (h : prepare singular none d u = .ok x) (a : Atom) :
    x.Has a ↔ u.Describes d a := by
  have hnum : prepareNum singular none u = .ok x → (x.Has a ↔ ∃ y, a = .num y ∧ u.DescribesNum y) := by
    clear h
    intro h
    cases u with
    | none => cases h
    | tuple l => cases h
    | set l => cases h
    | cs c =>
      cases h
      rfl
    | rs l =>
      simp only [prepareNum, bind, Except.bind, pure, Except.pure] at h
      cases h1 : l.mapM (fun c => RI.mk? c.lower c.upper c.left c.right) with
      | error e => rw [h1] at h; cases h
      | ok r =>
        rw [h1] at h
        cases h
        have h2 : r = l := by
          have := (mapM_ok_iff _ _ _).1 h1
          clear h1
          induction this with
          | nil => rfl
          | cons h t ih => rw [ih, (mk_ok.1 h).2]
        subst h2
        rfl
    | list l =>
      simp only [prepareNum, bind, Except.bind, pure, Except.pure] at h
      cases h1 : list2interval l with
      | error e => rw [h1] at h; cases h
      | ok c =>
        rw [h1] at h
        cases h
        obtain ⟨lo, hi, y, z, rfl, h2, h3, -, rfl⟩ := list2interval_ok.1 h1
        simp only [Val.Has, UArg.DescribesNum, mem_closed, between_iff h2 h3]
    | atom b =>
      cases b with
      | str s => cases h
      | num y =>
        simp only [prepareNum] at h
        cases singular with
        | true =>
          simp only [if_true] at h
          cases h
          simp only [Val.Has, UArg.DescribesNum, Atom.num.injEq]
          constructor
          · rintro rfl; exact ⟨y, rfl, rfl⟩
          · rintro ⟨z, rfl, rfl⟩; rfl
        | false =>
          simp only [Bool.false_eq_true, if_false, bind, Except.bind, pure, Except.pure] at h
          cases h1 : RI.mk? y y .inc .inc with
          | error e => rw [h1] at h; cases h
          | ok c =>
            rw [h1] at h
            cases h
            obtain ⟨-, rfl⟩ := mk_ok.1 h1
            simp only [Val.Has, UArg.DescribesNum, mem_closed, Atom.num.injEq]
            constructor
            · rintro ⟨z, rfl, h2, h3⟩; exact ⟨z, rfl, le_antisymm h2 h3⟩
            · rintro ⟨z, rfl, rfl⟩; exact ⟨_, rfl, le_refl _, le_refl _⟩
  cases d with
  | numeric n => exact hnum h
  | scaled n m s => exact hnum h
  | symbolic n ls =>
    simp only [prepare] at h
    cases u with
    | none => cases h
    | tuple l => cases h
    | cs c => cases h
    | rs l => cases h
    | set l => cases h; rfl
    | atom b =>
      cases h
      simp only [Val.Has, UArg.Describes, UArg.DescribesSym, List.mem_singleton]
    | list l =>
      simp only [prepareSym, Bool.false_eq_true, if_false] at h
      cases h1 : l.mapM id with
      | none => rw [h1] at h; cases h
      | some r =>
        rw [h1] at h
        cases h
        simp only [Val.Has, UArg.Describes, UArg.DescribesSym, List.mem_dedup]
        have h2 : l = r.map some := by
          clear hnum
          induction l generalizing r with
          | nil => simp at h1; subst h1; rfl
          | cons b l ih =>
            cases b with
            | none => simp at h1
            | some b =>
              cases h3 : l.mapM id with
              | none => simp [h3] at h1
              | some t =>
                simp [h3] at h1
                subst h1
                rw [ih t h3]; rfl
        rw [h2]
        simp
  | integer n lo hi =>
    simp only [prepare] at h
    cases u with
    | none => cases h
    | tuple l => cases h
    | cs c => cases h
    | rs l => cases h
    | set l => cases h; rfl
    | atom b =>
      cases h
      simp only [Val.Has, UArg.Describes, UArg.DescribesInt, List.mem_singleton]
    | list l =>
      simp only [prepareSym, if_true, bind, Except.bind, pure, Except.pure] at h
      cases h1 : list2intset l with
      | error e => rw [h1] at h; cases h
      | ok r =>
        rw [h1] at h
        cases h
        obtain ⟨y, z, rfl, h2⟩ := list2intset_ok h1
        simp only [Val.Has, UArg.Describes, UArg.DescribesInt, h2]
        have h3 : ∀ k : ℤ, Between (some (.int y)) (some (.int z)) (.fin k) ↔ y ≤ k ∧ k ≤ z := by
          intro k
          simp only [Between, Atom.int, Option.some.injEq, Atom.num.injEq, forall_eq', XQ.fin_le, Int.cast_le]
        simp only [h3]

/-- One item is skipped or sets a variable. -/
theorem prepareStep_ok {vs : List (Var Domain)} {blur : Var Domain → Option (XQ → Except Err RI)} {skip : Bool}
    {o : BindOpts} {m m' : Asg} {p : Key Domain × UArg} :
    prepareStep vs blur skip o m p = .ok m' ↔
      (p.2 = .none ∧ m' = m) ∨ (p.2 ≠ .none ∧ resolve vs p.1 = none ∧ skip = true ∧ m' = m) ∨
      ∃ v x, p.2 ≠ .none ∧ resolve vs p.1 = some v ∧ prepare o.singular (blur v) v.info p.2 = .ok x ∧
        (if o.labels then checkLabel v.info x else checkValue v.info x) = .ok () ∧ m' = VMap.setVar m v x := by
  unfold prepareStep
  by_cases h0 : p.2 = .none
  · rw [if_pos h0]
    constructor
    · intro h
      cases h
      exact .inl ⟨h0, rfl⟩
    · rintro (⟨-, rfl⟩ | ⟨h, -⟩ | ⟨_, _, h, -⟩)
      · rfl
      · exact absurd h0 h
      · exact absurd h0 h
  · rw [if_neg h0]
    cases hr : resolve vs p.1 with
    | none =>
      cases skip with
      | false =>
        constructor
        · intro h; cases h
        · rintro (⟨h, -⟩ | ⟨-, -, h, -⟩ | ⟨_, _, -, h, -⟩)
          · exact absurd h h0
          · cases h
          · cases h
      | true =>
        constructor
        · intro h; cases h; exact .inr (.inl ⟨h0, rfl, rfl, rfl⟩)
        · rintro (⟨h, -⟩ | ⟨-, -, -, rfl⟩ | ⟨_, _, -, h, -⟩)
          · exact absurd h h0
          · rfl
          · cases h
    | some v =>
      simp only [bind, Except.bind]
      cases hp : prepare o.singular (blur v) v.info p.2 with
      | error e =>
        simp only [reduceCtorEq, h0, false_and, and_false, ne_eq, not_false_eq_true, Option.some.injEq, true_and,
          false_or, false_iff]
        rintro ⟨w, x, rfl, h, -⟩
        rw [hp] at h
        cases h
      | ok x =>
        have hset : (if o.labels = true then Asg.setLabel m (.var v) x else Asg.setValue m (.var v) x)
            = ((if o.labels then checkLabel v.info x else checkValue v.info x) >>= fun _ => .ok (VMap.setVar m v x)) := by
          cases o.labels <;> rfl
        simp only [hset]
        constructor
        · intro h
          refine .inr (.inr ⟨v, x, h0, rfl, hp, ?_⟩)
          cases hc : (if o.labels then checkLabel v.info x else checkValue v.info x) with
          | error e => rw [hc] at h; cases h
          | ok u => rw [hc] at h; cases h; exact ⟨rfl, rfl⟩
        · rintro (⟨h, -⟩ | ⟨-, h, -⟩ | ⟨w, y, -, h1, h2, h3, rfl⟩)
          · exact absurd h h0
          · cases h
          · cases h1
            rw [hp] at h2
            cases h2
            rw [h3]
            rfl

/-- What is accepted: the value can be prepared and passes the check. -/
theorem prepare_accepts {singular : Bool} {d : Domain} {u : UArg} :
    (∃ x, prepare singular none d u = .ok x ∧ checkLabel d x = .ok ()) ↔ u.Accepts d := by
  have hnum : (∃ x, prepareNum singular none u = .ok x ∧ (if x.isNumeric then (.ok () : Except Err Unit) else .error .typeError) = .ok ())
      ↔ u.AcceptsNum := by
    cases u with
    | none => simp [prepareNum, UArg.AcceptsNum]
    | tuple l => simp [prepareNum, UArg.AcceptsNum]
    | set l => simp [prepareNum, UArg.AcceptsNum]
    | cs c => simp [prepareNum, UArg.AcceptsNum, Val.isNumeric]
    | rs l =>
      simp only [prepareNum, UArg.AcceptsNum, bind, Except.bind, pure, Except.pure]
      constructor
      · rintro ⟨x, h, -⟩
        cases h1 : l.mapM (fun c => RI.mk? c.lower c.upper c.left c.right) with
        | error e => rw [h1] at h; cases h
        | ok r =>
          have h2 := (mapM_ok_iff _ _ _).1 h1
          clear h1 h
          induction h2 with
          | nil => simp
          | cons h t ih =>
            intro c hc
            rcases List.mem_cons.1 hc with rfl | hc
            · exact (mk_ok.1 h).1
            · exact ih c hc
      · intro h
        have h1 : l.mapM (fun c => RI.mk? c.lower c.upper c.left c.right) = .ok l := by
          rw [mapM_ok_iff]
          induction l with
          | nil => exact .nil
          | cons c l ih =>
            exact .cons (mk_ok.2 ⟨h c (by simp), rfl⟩) (ih (fun c hc => h c (List.mem_cons_of_mem _ hc)))
        rw [h1]
        exact ⟨_, rfl, rfl⟩
    | list l =>
      simp only [prepareNum, bind, Except.bind, pure, Except.pure]
      have key : (∃ c, list2interval l = .ok c) ↔ (UArg.list l).AcceptsNum := by
        constructor
        · rintro ⟨c, hc⟩
          obtain ⟨a, b, x, y, rfl, h1, h2, h3, -⟩ := list2interval_ok.1 hc
          refine ⟨?_, ?_, ?_⟩
          · rintro s rfl; cases h1
          · rintro s rfl; cases h2
          · intro l u hl hu
            rw [boundOf_ok.2 hl] at h1
            rw [boundOf_ok.2 hu] at h2
            cases h1
            cases h2
            exact h3
        · intro h
          match l, h with
          | [a, b], ⟨h1, h2, h3⟩ =>
            have hb : ∀ (inf : XQ) (a : Option Atom), (∀ s, a ≠ some (.str s)) → ∃ x, boundOf inf a = .ok x := by
              intro inf a ha
              cases a with
              | none => exact ⟨_, rfl⟩
              | some a =>
                cases a with
                | num x => exact ⟨_, rfl⟩
                | str s => exact absurd rfl (ha s)
            obtain ⟨x, hx⟩ := hb .ninf a h1
            obtain ⟨y, hy⟩ := hb .pinf b h2
            exact ⟨_, list2interval_ok.2 ⟨a, b, x, y, rfl, hx, hy, h3 x y (boundOf_ok.1 hx) (boundOf_ok.1 hy), rfl⟩⟩
      rw [← key]
      constructor
      · rintro ⟨x, h, -⟩
        cases h1 : list2interval l with
        | error e => rw [h1] at h; cases h
        | ok c => exact ⟨c, rfl⟩
      · rintro ⟨c, hc⟩
        rw [hc]
        exact ⟨_, rfl, rfl⟩
    | atom b =>
      cases b with
      | str s => simp [prepareNum, UArg.AcceptsNum]
      | num y =>
        simp only [UArg.AcceptsNum, iff_true]
        simp only [prepareNum]
        cases singular with
        | true => exact ⟨_, rfl, rfl⟩
        | false =>
          simp only [Bool.false_eq_true, if_false, bind, Except.bind, pure, Except.pure]
          rw [mk_ok.2 ⟨le_refl y, rfl⟩]
          exact ⟨_, rfl, rfl⟩
  cases d with
  | numeric n => exact hnum
  | scaled n m s => exact hnum
  | symbolic n ls =>
    clear hnum
    have hif : ∀ (P : Prop) [Decidable P], ((if P then (.ok () : Except Err Unit) else .error .typeError) = .ok ()) ↔ P := by
      intro P _
      by_cases h : P <;> simp [h]
    simp only [prepare, checkLabel, hif]
    cases u with
    | none => simp [prepareSym, UArg.Accepts]
    | tuple l => simp [prepareSym, UArg.Accepts]
    | cs c => simp [prepareSym, UArg.Accepts]
    | rs l => simp [prepareSym, UArg.Accepts]
    | set l => simp [prepareSym, UArg.Accepts, Val.asSet]
    | atom b => simp [prepareSym, UArg.Accepts, Val.asSet]
    | list l =>
      simp only [prepareSym, Bool.false_eq_true, if_false, UArg.Accepts]
      cases h1 : l.mapM id with
      | none =>
        simp only [reduceCtorEq, false_and, exists_false, false_iff]
        intro h
        have : ∃ r, l.mapM id = some r := by
          clear h1
          induction l with
          | nil => exact ⟨[], rfl⟩
          | cons a l ih =>
            obtain ⟨r, hr⟩ := ih (fun b hb => h b (List.mem_cons_of_mem _ hb))
            obtain ⟨b, -, rfl⟩ := h a (by simp)
            exact ⟨b :: r, by simp [hr]⟩
        rw [h1] at this
        obtain ⟨r, hr⟩ := this
        cases hr
      | some r =>
        have h2 : l = r.map some := by
          induction l generalizing r with
          | nil => simp at h1; subst h1; rfl
          | cons b l ih =>
            cases b with
            | none => simp at h1
            | some b =>
              cases h3 : l.mapM id with
              | none => simp [h3] at h1
              | some t =>
                simp [h3] at h1
                subst h1
                rw [ih t h3]; rfl
        subst h2
        simp [Val.asSet]
  | integer n lo hi =>
    clear hnum
    simp only [prepare, checkLabel, and_true]
    cases u with
    | none => simp [prepareSym, UArg.Accepts]
    | tuple l => simp [prepareSym, UArg.Accepts]
    | cs c => simp [prepareSym, UArg.Accepts]
    | rs l => simp [prepareSym, UArg.Accepts]
    | set l => simp [prepareSym, UArg.Accepts]
    | atom b => simp [prepareSym, UArg.Accepts]
    | list l =>
      simp only [prepareSym, if_true, UArg.Accepts, bind, Except.bind, pure, Except.pure]
      constructor
      · rintro ⟨x, h⟩
        cases h1 : list2intset l with
        | error e => rw [h1] at h; cases h
        | ok r =>
          obtain ⟨y, z, rfl, -⟩ := list2intset_ok h1
          refine ⟨rfl, fun a ha => ?_⟩
          simp only [List.mem_cons, List.not_mem_nil, or_false] at ha
          rcases ha with rfl | rfl
          · exact ⟨y, rfl⟩
          · exact ⟨z, rfl⟩
      · rintro ⟨h1, h2⟩
        match l, h1, h2 with
        | [a, b], _, h2 =>
          obtain ⟨y, rfl⟩ := h2 a (by simp)
          obtain ⟨z, rfl⟩ := h2 b (by simp)
          obtain ⟨s, h4, -, -⟩ := (Ut.C22_list2intset [y, z]).2 y z rfl
          have h5 : [some (Atom.int y), some (Atom.int z)].mapM asInt = .ok [y, z] :=
            (mapM_ok_iff _ _ _).2 (.cons (asInt_ok.2 rfl) (.cons (asInt_ok.2 rfl) .nil))
          have h6 : list2intset [some (Atom.int y), some (Atom.int z)] = .ok (s.map Atom.int) := by
            unfold list2intset
            simp only [List.length_cons, List.length_nil, ne_eq, Nat.reduceAdd, not_true_eq_false, if_false, bind, Except.bind,
              pure, Except.pure, h5, h4]
          rw [h6]
          exact ⟨_, rfl⟩

/-- No variable has a `blur`. -/
abbrev noBlur : Var Domain → Option (XQ → Except Err RI) := fun _ => none

/-- What is prepared last for a variable is assigned to it. -/
theorem preprocess_last {vs : List (Var Domain)} (hvs : (vs.map Var.name).Nodup) {skip : Bool} {o : BindOpts}
    {q : List (Key Domain × UArg)} (hq : ∀ p ∈ q, ∀ v, p.1 = .var v → v ∈ vs) {m : Asg}
    (hm : preprocessQuery vs noBlur skip o q = .ok m) :
    VMap.WF m ∧ (∀ v ∈ vs, (VMap.view m).decl v.name = some v) ∧
    (∀ n, (∀ p ∈ q, p.2 ≠ .none → ∀ v, Named vs p.1 v → v.name ≠ n) → (VMap.view m).val n = none) ∧
    (∀ pre k u post v, q = pre ++ (k, u) :: post → u ≠ .none → Named vs k v →
      (∀ p ∈ post, p.2 ≠ .none → ¬ Named vs p.1 v) →
      (∃ x, (VMap.view m).val v.name = some x ∧ prepare o.singular none v.info u = .ok x)) ∧
    ∀ n x, (VMap.view m).val n = some x → ∃ p ∈ q, ∃ v, p.2 ≠ .none ∧ v ∈ vs ∧ v.name = n ∧
      Named vs p.1 v ∧ prepare o.singular none v.info p.2 = .ok x := by
  have key : ∀ (q : List (Key Domain × UArg)) (m0 m : Asg), (∀ p ∈ q, ∀ v, p.1 = .var v → v ∈ vs) → VMap.WF m0 →
      (∀ v ∈ vs, (VMap.view m0).decl v.name = some v) → q.foldlM (prepareStep vs noBlur skip o) m0 = .ok m →
      VMap.WF m ∧ (∀ v ∈ vs, (VMap.view m).decl v.name = some v) ∧
      (∀ n, (∀ p ∈ q, p.2 ≠ .none → ∀ v, Named vs p.1 v → v.name ≠ n) → (VMap.view m).val n = (VMap.view m0).val n) ∧
      (∀ pre k u post v, q = pre ++ (k, u) :: post → u ≠ .none → Named vs k v →
        (∀ p ∈ post, p.2 ≠ .none → ¬ Named vs p.1 v) →
        (∃ x, (VMap.view m).val v.name = some x ∧ prepare o.singular none v.info u = .ok x)) ∧
      ∀ n x, (VMap.view m).val n = some x → (VMap.view m0).val n = some x ∨ ∃ p ∈ q, ∃ v, p.2 ≠ .none ∧ v ∈ vs ∧ v.name = n ∧
        Named vs p.1 v ∧ prepare o.singular none v.info p.2 = .ok x := by
    intro q
    induction q with
    | nil =>
      intro m0 m _ hw hd h
      cases h
      exact ⟨hw, hd, fun _ _ => rfl, fun pre k u post v e => by simp at e, fun n x hx => .inl hx⟩
    | cons p q ih =>
      intro m0 m hq hw hd h
      rw [List.foldlM_cons] at h
      cases hs : prepareStep vs noBlur skip o m0 p with
      | error e => rw [hs] at h; cases h
      | ok m1 =>
        rw [hs] at h
        have hq' := fun p hp => hq p (List.mem_cons_of_mem _ hp)
        have hnamed : ∀ v, Named vs p.1 v → v ∈ vs := by
          rintro v (h | ⟨-, h⟩)
          · exact hq p (by simp) v h
          · exact h
        rcases prepareStep_ok.1 hs with ⟨h1, rfl⟩ | ⟨h1, h2, -, rfl⟩ | ⟨v, x, h1, h2, h3, -, rfl⟩
        · obtain ⟨i1, i2, i3, i4, i5⟩ := ih m1 m hq' hw hd h
          refine ⟨i1, i2, fun n hn => i3 n (fun p hp => hn p (List.mem_cons_of_mem _ hp)), ?_,
            fun n x hx => (i5 n x hx).imp id (fun ⟨p', hp', h⟩ => ⟨p', List.mem_cons_of_mem _ hp', h⟩)⟩
          intro pre k u post v e hu
          cases pre with
          | nil => cases e; exact absurd h1 hu
          | cons p' pre => cases e; exact i4 pre k u post v rfl hu
        · obtain ⟨i1, i2, i3, i4, i5⟩ := ih m1 m hq' hw hd h
          refine ⟨i1, i2, fun n hn => i3 n (fun p hp => hn p (List.mem_cons_of_mem _ hp)), ?_,
            fun n x hx => (i5 n x hx).imp id (fun ⟨p', hp', h⟩ => ⟨p', List.mem_cons_of_mem _ hp', h⟩)⟩
          intro pre k u post v e hu hk
          cases pre with
          | nil => cases e; rw [(resolve_iff hvs).2 hk] at h2; cases h2
          | cons p' pre => cases e; exact i4 pre k u post v rfl hu hk
        · have hv := hnamed v ((resolve_iff hvs).1 h2)
          have hview := VMap.setVar_view m0 v x
          have hd1 : ∀ w ∈ vs, (VMap.view (VMap.setVar m0 v x)).decl w.name = some w := by
            intro w hw
            rw [hview, if_neg (by rw [hd v hv]; simp)]
            exact hd w hw
          obtain ⟨i1, i2, i3, i4, i5⟩ := ih _ m hq' (VMap.setVar_wf hw v x) hd1 h
          refine ⟨i1, i2, fun n hn => ?_, ?_, fun n y hy => ?_⟩
          · rw [i3 n (fun p hp => hn p (List.mem_cons_of_mem _ hp)), hview]
            exact Function.update_of_ne (hn p (by simp) h1 v ((resolve_iff hvs).1 h2)).symm _ _
          · intro pre k u post w e hu hk hpost
            cases pre with
            | nil =>
              cases e
              rw [(resolve_iff hvs).2 hk] at h2
              cases h2
              refine ⟨x, ?_, h3⟩
              rw [i3 v.name ?_, hview]
              · exact Function.update_self _ _ _
              · intro p hp hpn w' hw' e
                have : w' = v := by
                  have hw'' : w' ∈ vs := by
                    rcases hw' with h | ⟨-, h⟩
                    · exact hq' p hp w' h
                    · exact h
                  exact List.inj_on_of_nodup_map hvs hw'' hv e
                subst this
                exact hpost p hp hpn hw'
            | cons p' pre => cases e; exact i4 pre k u post w rfl hu hk hpost
          · rcases i5 n y hy with h | ⟨p', hp', h⟩
            · rw [hview] at h
              by_cases hn : n = v.name
              · subst hn
                have h' := h
                simp only [Function.update_self, Option.some.injEq] at h'
                subst h'
                exact .inr ⟨p, by simp, v, h1, hv, rfl, (resolve_iff hvs).1 h2, h3⟩
              · left
                simpa [Function.update_of_ne hn] using h
            · exact .inr ⟨p', List.mem_cons_of_mem _ hp', h⟩
  have hdecl : ∀ v ∈ vs, (VMap.view (VMap.empty vs : Asg)).decl v.name = some v := by
    intro v hv
    exact (resolve_iff hvs (k := .name v.name)).2 (.inr ⟨rfl, hv⟩)
  obtain ⟨k1, k2, k3, k4, k5⟩ := key q _ m hq (empty_wf vs) hdecl hm
  refine ⟨k1, k2, k3, k4, fun n x hx => ?_⟩
  rcases k5 n x hx with h | h
  · cases h
  · exact h

end Verif.Vars
