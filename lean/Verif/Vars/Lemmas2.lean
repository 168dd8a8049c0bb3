import Verif.Vars.Spec2
import Verif.Vars.Lemmas
import Verif.ListAux
import Mathlib.Tactic.FieldSimp
import Mathlib.Tactic.Ring
import Mathlib.Tactic.Linarith
import Mathlib.Data.List.NodupEquivFin

/-!
# Lemmas on labels and values
-/

namespace Verif.Vars

namespace Domain

theorem intLabels_nodup (a b : ℤ) : (Disc.intLabels a b).Nodup := by
  unfold Disc.intLabels
  refine List.Nodup.map ?_ List.nodup_range
  intro i j h
  simp only at h
  omega

theorem Atom.int_inj {a b : ℤ} (h : Atom.int a = Atom.int b) : a = b := by
  unfold Atom.int at h
  injection h with h
  injection h with h
  exact_mod_cast h

theorem labels_nodup {d : Domain} (hd : d.OK) : d.labels.Nodup := by
  cases d with
  | numeric => exact List.nodup_nil
  | scaled => exact List.nodup_nil
  | symbolic _ ls => exact hd
  | integer _ a b =>
    show ((Disc.intLabels a b).map Atom.int).Nodup
    exact (intLabels_nodup a b).map fun _ _ h => Atom.int_inj h

theorem valueOf_iff {d : Domain} (hd : d.OK) (a b : Atom) : d.valueOf a = some b ↔ d.At a b := by
  unfold valueOf At
  have hn := labels_nodup hd
  rw [Option.map_eq_some_iff]
  constructor
  · rintro ⟨i, h1, h2⟩
    rw [List.idxOf?_eq_some_iff] at h1
    obtain ⟨hi, h1, _⟩ := h1
    exact ⟨i, by rw [List.getElem?_eq_getElem hi]; simpa using h1, h2.symm⟩
  · rintro ⟨i, h1, rfl⟩
    refine ⟨i, ?_, rfl⟩
    rw [List.idxOf?_eq_some_iff]
    obtain ⟨hi, h1⟩ := List.getElem?_eq_some_iff.1 h1
    refine ⟨hi, by simpa using h1, ?_⟩
    intro j hj e
    have : d.labels[j] = d.labels[i] := by rw [h1]; simpa using e
    have := (List.Nodup.getElem_inj_iff hn).1 this
    omega

theorem labelOf_iff (d : Domain) (a b : Atom) : d.labelOf b = some a ↔ d.At a b := by
  unfold At
  constructor
  · intro h
    unfold labelOf at h
    split at h
    · rename_i q
      split_ifs at h with hq
      refine ⟨q.num.toNat, h, ?_⟩
      unfold Atom.int
      congr 2
      have h0 : 0 ≤ q.num := Rat.num_nonneg.2 hq.2
      have : ((q.num.toNat : ℤ)) = q.num := Int.toNat_of_nonneg h0
      rw [this]
      exact (Rat.den_eq_one_iff q).1 hq.1 |>.symm
    · cases h
  · rintro ⟨i, h1, rfl⟩
    unfold labelOf Atom.int
    simp only
    rw [if_pos]
    · simpa using h1
    · constructor
      · simp
      · positivity

theorem convert_of_forall {A B : Type} [DecidableEq B] {f : A → Option B} {R : A → B → Prop}
    (hf : ∀ a b, f a = some b ↔ R a b) {l : List A} {k : List B} (h : List.Forall₂ R l k) :
    l.mapM f = some k := by
  induction h with
  | nil => rfl
  | cons h _ ih => rw [List.mapM_cons, (hf _ _).2 h, ih]; rfl

theorem at_injL {d : Domain} (hd : d.OK) {a a' b : Atom} (h : d.At a b) (h' : d.At a' b) : a = a' := by
  have := (labelOf_iff d a b).2 h
  have h2 := (labelOf_iff d a' b).2 h'
  rw [this] at h2
  exact Option.some.inj h2

theorem at_injR {d : Domain} (hd : d.OK) {a b b' : Atom} (h : d.At a b) (h' : d.At a b') : b = b' := by
  have := (valueOf_iff hd a b).2 h
  have h2 := (valueOf_iff hd a b').2 h'
  rw [this] at h2
  exact Option.some.inj h2

theorem forall₂_mem_left {A B : Type} {R : A → B → Prop} {l : List A} {k : List B} (h : List.Forall₂ R l k) {a : A}
    (ha : a ∈ l) : ∃ b ∈ k, R a b := by
  induction h with
  | nil => cases ha
  | cons h _ ih =>
    rcases List.mem_cons.1 ha with rfl | ha
    · exact ⟨_, List.mem_cons_self, h⟩
    · obtain ⟨b, hb, hr⟩ := ih ha
      exact ⟨b, List.mem_cons_of_mem _ hb, hr⟩

theorem nodup_forall₂ {A B : Type} {R : A → B → Prop} (inj : ∀ a a' b, R a b → R a' b → a = a') {l : List A} {k : List B}
    (h : List.Forall₂ R l k) (hl : l.Nodup) : k.Nodup := by
  induction h with
  | nil => exact List.nodup_nil
  | @cons a b l k hab hlk ih =>
    rw [List.nodup_cons] at hl ⊢
    refine ⟨?_, ih hl.2⟩
    intro hb
    obtain ⟨a', ha', hr⟩ := forall₂_mem_right hlk hb
    rw [inj a a' b hab hr] at hl
    exact hl.1 ha'

theorem convSym_toValue {d : Domain} (hd : d.OK) {x y : Val} (h : d.CorrSym x y)
    (hset : ∀ k, y = .ev (.set k) → k.Nodup) : convSym d.valueOf x = .ok y := by
  have hf := valueOf_iff hd
  unfold CorrSym at h
  split at h
  · simp only [convSym, Disc.convert, (hf _ _).2 h, bind, Except.bind, pure, Except.pure]
  · simp only [convSym, Disc.convert, convert_of_forall hf h, bind, Except.bind, pure, Except.pure]
  · simp only [convSym, Disc.convert, convert_of_forall hf h, bind, Except.bind, pure, Except.pure]
  · rename_i l k
    simp only [convSym, Disc.convert, convert_of_forall hf h, bind, Except.bind, pure, Except.pure]
    rw [List.Nodup.dedup (hset k rfl)]
  · exact h.elim

theorem convSym_toLabel {d : Domain} {x y : Val} (h : d.CorrSym x y)
    (hset : ∀ k, x = .ev (.set k) → k.Nodup) : convSym d.labelOf y = .ok x := by
  have hf : ∀ b a, d.labelOf b = some a ↔ d.At a b := fun b a => labelOf_iff d a b
  unfold CorrSym at h
  split at h
  · simp only [convSym, Disc.convert, (hf _ _).2 h, bind, Except.bind, pure, Except.pure]
  · simp only [convSym, Disc.convert, convert_of_forall hf h.flip, bind, Except.bind, pure, Except.pure]
  · simp only [convSym, Disc.convert, convert_of_forall hf h.flip, bind, Except.bind, pure, Except.pure]
  · rename_i l k
    simp only [convSym, Disc.convert, convert_of_forall hf h.flip, bind, Except.bind, pure, Except.pure]
    rw [List.Nodup.dedup (hset l rfl)]
  · exact h.elim

theorem exists_value {d : Domain} {a : Atom} (h : a ∈ d.labels) : ∃ b ∈ d.values, d.At a b := by
  obtain ⟨i, hi, rfl⟩ := List.getElem_of_mem h
  exact ⟨Atom.int i, List.mem_map.2 ⟨i, List.mem_range.2 hi, rfl⟩, i, List.getElem?_eq_getElem hi, rfl⟩

theorem exists_label {d : Domain} {b : Atom} (h : b ∈ d.values) : ∃ a ∈ d.labels, d.At a b := by
  obtain ⟨i, hi, rfl⟩ := List.mem_map.1 h
  have hi := List.mem_range.1 hi
  exact ⟨d.labels[i], List.getElem_mem hi, i, List.getElem?_eq_getElem hi, rfl⟩

theorem at_mem {d : Domain} {a b : Atom} (h : d.At a b) : a ∈ d.labels ∧ b ∈ d.values := by
  obtain ⟨i, h1, rfl⟩ := h
  refine ⟨List.mem_of_getElem? h1, List.mem_map.2 ⟨i, List.mem_range.2 ?_, rfl⟩⟩
  exact (List.getElem?_eq_some_iff.1 h1).1

theorem forall₂_exists {A B : Type} {R : A → B → Prop} {l : List A} (h : ∀ a ∈ l, ∃ b, R a b) :
    ∃ k, List.Forall₂ R l k := by
  induction l with
  | nil => exact ⟨[], .nil⟩
  | cons a l ih =>
    obtain ⟨b, hb⟩ := h a List.mem_cons_self
    obtain ⟨k, hk⟩ := ih fun a ha => h a (List.mem_cons_of_mem _ ha)
    exact ⟨b :: k, .cons hb hk⟩

theorem sets_right {d : Domain} (hd : d.OK) {x y : Val} (h : d.CorrSym x y)
    (hset : ∀ k, x = .ev (.set k) → k.Nodup) : ∀ k, y = .ev (.set k) → k.Nodup := by
  rintro k rfl
  cases x with
  | cs c => exact h.elim
  | rs l => exact h.elim
  | ev e =>
    cases e with
    | atom a => exact h.elim
    | list l => exact h.elim
    | tuple l => exact h.elim
    | set l => exact nodup_forall₂ (R := d.At) (fun a a' b h1 h2 => at_injL hd h1 h2) h (hset l rfl)

theorem sets_left {d : Domain} (hd : d.OK) {x y : Val} (h : d.CorrSym x y)
    (hset : ∀ k, y = .ev (.set k) → k.Nodup) : ∀ k, x = .ev (.set k) → k.Nodup := by
  rintro k rfl
  cases y with
  | cs c => exact h.elim
  | rs l => exact h.elim
  | ev e =>
    cases e with
    | atom a => exact h.elim
    | list l => exact h.elim
    | tuple l => exact h.elim
    | set l =>
      have h' : List.Forall₂ d.At k l := h
      exact nodup_forall₂ (R := fun b a => d.At a b) (fun b b' a h1 h2 => at_injR hd h1 h2) h'.flip (hset l rfl)

/-! ### Numbers -/

theorem scaled_toValue {d : Domain} (hd : d.OK) (x y : XQ) : d.toValue x = y ↔ d.Scaled x y := by
  cases d with
  | scaled _ m s =>
    have hs : s ≠ 0 := ne_of_gt hd
    unfold toValue Scaled
    cases x with
    | ninf => simp [XQ.map, eq_comm]
    | pinf => simp [XQ.map, eq_comm]
    | fin p =>
      constructor
      · intro h
        refine Or.inr (Or.inr ⟨p, (p - m) / s, rfl, h.symm, ?_⟩)
        field_simp
        ring
      · rintro (⟨h, _⟩ | ⟨h, _⟩ | ⟨p', q, h1, h2, h3⟩)
        · cases h
        · cases h
        · cases h1
          rw [h2, h3]
          show XQ.fin _ = _
          congr 1
          field_simp
          ring
  | numeric => exact Iff.rfl
  | symbolic => exact Iff.rfl
  | integer => exact Iff.rfl

theorem scaled_toLabel (d : Domain) (x y : XQ) : d.toLabel y = x ↔ d.Scaled x y := by
  cases d with
  | scaled _ m s =>
    unfold toLabel Scaled
    cases y with
    | ninf => simp [XQ.map, eq_comm]
    | pinf => simp [XQ.map, eq_comm]
    | fin q =>
      simp only [XQ.map]
      constructor
      · intro h
        exact Or.inr (Or.inr ⟨_, q, h.symm, rfl, rfl⟩)
      · rintro (⟨_, h⟩ | ⟨_, h⟩ | ⟨p', q', h1, h2, h3⟩)
        · cases h
        · cases h
        · cases h2; rw [h1, h3]
  | numeric => exact eq_comm
  | symbolic => exact eq_comm
  | integer => exact eq_comm

theorem scaled_le {d : Domain} (hd : d.OK) {x y x' y' : XQ} (h : d.Scaled x y) (h' : d.Scaled x' y') :
    x.le x' = y.le y' := by
  cases d with
  | scaled _ m s =>
    have hs : 0 < s := hd
    rcases h with ⟨rfl, rfl⟩ | ⟨rfl, rfl⟩ | ⟨p, q, rfl, rfl, rfl⟩ <;>
      rcases h' with ⟨rfl, rfl⟩ | ⟨rfl, rfl⟩ | ⟨p', q', rfl, rfl, rfl⟩ <;> simp [XQ.le, hs]
  | numeric => cases h; cases h'; rfl
  | symbolic => cases h; cases h'; rfl
  | integer => cases h; cases h'; rfl

theorem convRI_toValue {d : Domain} (hd : d.OK) {c e : RI} (h : d.CorrRI c e) (hc : c.lower.le c.upper = true) :
    convRI d.toValue c = .ok e := by
  obtain ⟨h1, h2, h3, h4⟩ := h
  unfold convRI RI.mk?
  rw [(scaled_toValue hd _ _).2 h1, (scaled_toValue hd _ _).2 h2, ← scaled_le hd h1 h2, if_pos hc, h3, h4]

theorem convRI_toLabel {d : Domain} (hd : d.OK) {c e : RI} (h : d.CorrRI c e) (hc : e.lower.le e.upper = true) :
    convRI d.toLabel e = .ok c := by
  obtain ⟨h1, h2, h3, h4⟩ := h
  unfold convRI RI.mk?
  rw [(scaled_toLabel d _ _).2 h1, (scaled_toLabel d _ _).2 h2, scaled_le hd h1 h2, if_pos hc, ← h3, ← h4]

theorem corrNum_number {d : Domain} (hd : d.OK) {x y : Val} (h : d.CorrNum x y) : x.Number ↔ y.Number := by
  unfold CorrNum at h
  split at h
  · exact Iff.rfl
  · rename_i c e
    show c.lower.le c.upper = true ↔ e.lower.le e.upper = true
    rw [scaled_le hd h.1 h.2.1]
  · rename_i l k
    show (∀ c ∈ l, c.lower.le c.upper = true) ↔ ∀ c ∈ k, c.lower.le c.upper = true
    induction h with
    | nil => simp
    | cons h _ ih => rw [List.forall_mem_cons, List.forall_mem_cons, ih, scaled_le hd h.1 h.2.1]
  · exact h.elim

theorem mapM_ri {f : RI → Except Err RI} {l k : List RI} (h : List.Forall₂ (fun a b => f a = .ok b) l k) :
    l.mapM f = .ok k := by
  induction h with
  | nil => rfl
  | cons h _ ih => rw [List.mapM_cons, h, ih]; rfl

theorem convNum_toValue {d : Domain} (hd : d.OK) {x y : Val} (h : d.CorrNum x y) (hx : x.Number) :
    convNum d.toValue x = .ok y := by
  unfold CorrNum at h
  split at h
  · simp only [convNum, (scaled_toValue hd _ _).2 h]
  · rename_i c e
    simp only [convNum, convRI_toValue hd h hx, bind, Except.bind, pure, Except.pure]
  · rename_i l k
    have : l.mapM (convRI d.toValue) = .ok k := by
      apply mapM_ri
      have hx' : ∀ c ∈ l, c.lower.le c.upper = true := hx
      clear hx
      induction h with
      | nil => exact .nil
      | cons h _ ih =>
        exact .cons (convRI_toValue hd h (hx' _ List.mem_cons_self)) (ih fun c hc => hx' c (List.mem_cons_of_mem _ hc))
    simp only [convNum, this, bind, Except.bind, pure, Except.pure]
  · exact h.elim

theorem convNum_toLabel {d : Domain} (hd : d.OK) {x y : Val} (h : d.CorrNum x y) (hx : y.Number) :
    convNum d.toLabel y = .ok x := by
  unfold CorrNum at h
  split at h
  · simp only [convNum, (scaled_toLabel d _ _).2 h]
  · rename_i c e
    simp only [convNum, convRI_toLabel hd h hx, bind, Except.bind, pure, Except.pure]
  · rename_i l k
    have : k.mapM (convRI d.toLabel) = .ok l := by
      apply mapM_ri
      have hx' : ∀ c ∈ k, c.lower.le c.upper = true := hx
      clear hx
      induction h with
      | nil => exact .nil
      | cons h _ ih =>
        exact .cons (convRI_toLabel hd h (hx' _ List.mem_cons_self)) (ih fun c hc => hx' c (List.mem_cons_of_mem _ hc))
    simp only [convNum, this, bind, Except.bind, pure, Except.pure]
  · exact h.elim

theorem corrRI_right {d : Domain} (hd : d.OK) (c : RI) : ∃ e, d.CorrRI c e :=
  ⟨⟨d.toValue c.lower, d.toValue c.upper, c.left, c.right⟩, (scaled_toValue hd _ _).1 rfl,
    (scaled_toValue hd _ _).1 rfl, rfl, rfl⟩

theorem corrRI_left (d : Domain) (e : RI) : ∃ c, d.CorrRI c e :=
  ⟨⟨d.toLabel e.lower, d.toLabel e.upper, e.left, e.right⟩, (scaled_toLabel d _ _).1 rfl,
    (scaled_toLabel d _ _).1 rfl, rfl, rfl⟩

theorem corrNum_right {d : Domain} (hd : d.OK) {x : Val} (hx : x.Number) : ∃ y, d.CorrNum x y := by
  unfold Val.Number at hx
  split at hx
  · rename_i q
    exact ⟨.ev (.atom (.num (d.toValue q))), (scaled_toValue hd _ _).1 rfl⟩
  · rename_i c
    obtain ⟨e, h⟩ := corrRI_right hd c
    exact ⟨.cs e, h⟩
  · rename_i l
    obtain ⟨k, h⟩ := forall₂_exists (l := l) fun c _ => corrRI_right hd c
    exact ⟨.rs k, h⟩
  · exact hx.elim

theorem corrNum_left {d : Domain} {y : Val} (hy : y.Number) : ∃ x, d.CorrNum x y := by
  unfold Val.Number at hy
  split at hy
  · rename_i q
    exact ⟨.ev (.atom (.num (d.toLabel q))), (scaled_toLabel d _ _).1 rfl⟩
  · rename_i c
    obtain ⟨e, h⟩ := corrRI_left d c
    exact ⟨.cs e, h⟩
  · rename_i l
    obtain ⟨k, h⟩ := forall₂_exists (R := fun e c => d.CorrRI c e) (l := l) fun c _ => corrRI_left d c
    exact ⟨.rs k, h.flip⟩
  · exact hy.elim

/-! ### Events -/

theorem symbol_event {s : List Atom} {x : Val} (h : x.Symbol s) : x.Event s := by
  unfold Val.Symbol at h
  split at h
  · simpa [Val.Event, Disc.Arg.elems] using h
  · exact h
  · exact h.elim

theorem event_set {s : List Atom} {x : Val} (h : x.Event s) : ∀ k, x = .ev (.set k) → k.Nodup := by
  rintro k rfl
  exact h.1

theorem corrSym_right {d : Domain} {x : Val} (hx : x.Event d.labels) : ∃ y, d.CorrSym x y := by
  have ex : ∀ a ∈ d.labels, ∃ b, d.At a b := fun a ha => by
    obtain ⟨b, _, h⟩ := exists_value ha; exact ⟨b, h⟩
  cases x with
  | cs c => exact hx.elim
  | rs l => exact hx.elim
  | ev e =>
    cases e with
    | atom a =>
      obtain ⟨b, hb⟩ := ex a (hx a (by simp [Disc.Arg.elems]))
      exact ⟨.ev (.atom b), hb⟩
    | list l =>
      obtain ⟨k, hk⟩ := forall₂_exists (l := l) fun a ha => ex a (hx a ha)
      exact ⟨.ev (.list k), hk⟩
    | tuple l =>
      obtain ⟨k, hk⟩ := forall₂_exists (l := l) fun a ha => ex a (hx a ha)
      exact ⟨.ev (.tuple k), hk⟩
    | set l =>
      obtain ⟨k, hk⟩ := forall₂_exists (l := l) fun a ha => ex a (hx.2 a ha)
      exact ⟨.ev (.set k), hk⟩

theorem corrSym_left {d : Domain} {y : Val} (hy : y.Event d.values) : ∃ x, d.CorrSym x y := by
  have ex : ∀ b ∈ d.values, ∃ a, d.At a b := fun b hb => by
    obtain ⟨a, _, h⟩ := exists_label hb; exact ⟨a, h⟩
  cases y with
  | cs c => exact hy.elim
  | rs l => exact hy.elim
  | ev e =>
    cases e with
    | atom a =>
      obtain ⟨b, hb⟩ := ex a (hy a (by simp [Disc.Arg.elems]))
      exact ⟨.ev (.atom b), hb⟩
    | list l =>
      obtain ⟨k, hk⟩ := forall₂_exists (R := fun b a => d.At a b) (l := l) fun a ha => ex a (hy a ha)
      exact ⟨.ev (.list k), hk.flip⟩
    | tuple l =>
      obtain ⟨k, hk⟩ := forall₂_exists (R := fun b a => d.At a b) (l := l) fun a ha => ex a (hy a ha)
      exact ⟨.ev (.tuple k), hk.flip⟩
    | set l =>
      obtain ⟨k, hk⟩ := forall₂_exists (R := fun b a => d.At a b) (l := l) fun a ha => ex a (hy.2 a ha)
      exact ⟨.ev (.set k), hk.flip⟩

theorem corrSym_symbol_right {d : Domain} (hd : d.OK) {x y : Val} (h : d.CorrSym x y) (hx : x.Symbol d.labels) :
    y.Symbol d.values := by
  have hs := sets_right hd h (event_set (symbol_event hx))
  unfold CorrSym at h
  split at h
  · exact (at_mem h).2
  · exact hx.elim
  · exact hx.elim
  · rename_i l k
    refine ⟨hs k rfl, ?_⟩
    intro b hb
    obtain ⟨a, _, hr⟩ := forall₂_mem_right h hb
    exact (at_mem hr).2
  · exact h.elim

theorem corrSym_symbol_left {d : Domain} (hd : d.OK) {x y : Val} (h : d.CorrSym x y) (hy : y.Symbol d.values) :
    x.Symbol d.labels := by
  have hs := sets_left hd h (event_set (symbol_event hy))
  unfold CorrSym at h
  split at h
  · exact (at_mem h).1
  · exact hy.elim
  · exact hy.elim
  · rename_i l k
    refine ⟨hs l rfl, ?_⟩
    intro b hb
    obtain ⟨a, _, hr⟩ := forall₂_mem_left h hb
    exact (at_mem hr).1
  · exact h.elim

theorem corrSym_event_right {d : Domain} (hd : d.OK) {x y : Val} (h : d.CorrSym x y) (hx : x.Event d.labels) :
    y.Event d.values := by
  have hs := sets_right hd h (event_set hx)
  have key : ∀ l k : List Atom, List.Forall₂ d.At l k → ∀ b ∈ k, b ∈ d.values := by
    intro l k h b hb
    obtain ⟨a, _, hr⟩ := forall₂_mem_right h hb
    exact (at_mem hr).2
  unfold CorrSym at h
  split at h
  · intro b hb
    simp only [Disc.Arg.elems, List.mem_singleton] at hb
    rw [hb]
    exact (at_mem h).2
  · exact key _ _ h
  · exact key _ _ h
  · exact ⟨hs _ rfl, key _ _ h⟩
  · exact h.elim

theorem corrSym_event_left {d : Domain} (hd : d.OK) {x y : Val} (h : d.CorrSym x y) (hy : y.Event d.values) :
    x.Event d.labels := by
  have hs := sets_left hd h (event_set hy)
  have key : ∀ l k : List Atom, List.Forall₂ d.At l k → ∀ b ∈ l, b ∈ d.labels := by
    intro l k h b hb
    obtain ⟨a, _, hr⟩ := forall₂_mem_left h hb
    exact (at_mem hr).1
  unfold CorrSym at h
  split at h
  · intro b hb
    simp only [Disc.Arg.elems, List.mem_singleton] at hb
    rw [hb]
    exact (at_mem h).1
  · exact key _ _ h
  · exact key _ _ h
  · exact ⟨hs _ rfl, key _ _ h⟩
  · exact h.elim

/-! ### All domains -/

theorem label_value {d : Domain} (hd : d.OK) {x : Val} (hx : d.IsLabel x) :
    ∃ y, d.label2value x = .ok y ∧ d.Corr x y ∧ d.IsValue y := by
  cases d with
  | numeric _ =>
    obtain ⟨y, h⟩ := corrNum_right hd hx
    exact ⟨y, convNum_toValue hd h hx, h, (corrNum_number hd h).1 hx⟩
  | scaled _ _ _ =>
    obtain ⟨y, h⟩ := corrNum_right hd hx
    exact ⟨y, convNum_toValue hd h hx, h, (corrNum_number hd h).1 hx⟩
  | symbolic _ _ =>
    obtain ⟨y, h⟩ := corrSym_right (symbol_event hx)
    exact ⟨y, convSym_toValue hd h (sets_right hd h (event_set (symbol_event hx))), h, corrSym_symbol_right hd h hx⟩
  | integer _ _ _ =>
    obtain ⟨y, h⟩ := corrSym_right hx
    exact ⟨y, convSym_toValue hd h (sets_right hd h (event_set hx)), h, corrSym_event_right hd h hx⟩

theorem value_label {d : Domain} (hd : d.OK) {y : Val} (hy : d.IsValue y) :
    ∃ x, d.value2label y = .ok x ∧ d.Corr x y ∧ d.IsLabel x := by
  cases d with
  | numeric _ =>
    obtain ⟨x, h⟩ := corrNum_left hy
    exact ⟨x, convNum_toLabel hd h hy, h, (corrNum_number hd h).2 hy⟩
  | scaled _ _ _ =>
    obtain ⟨x, h⟩ := corrNum_left hy
    exact ⟨x, convNum_toLabel hd h hy, h, (corrNum_number hd h).2 hy⟩
  | symbolic _ _ =>
    obtain ⟨x, h⟩ := corrSym_left (symbol_event hy)
    exact ⟨x, convSym_toLabel h (sets_left hd h (event_set (symbol_event hy))), h, corrSym_symbol_left hd h hy⟩
  | integer _ _ _ =>
    obtain ⟨x, h⟩ := corrSym_left hy
    exact ⟨x, convSym_toLabel h (sets_left hd h (event_set hy)), h, corrSym_event_left hd h hy⟩

theorem corr_back {d : Domain} (hd : d.OK) {x y : Val} (h : d.Corr x y) (hx : d.IsLabel x) :
    d.value2label y = .ok x := by
  cases d with
  | numeric _ => exact convNum_toLabel hd h ((corrNum_number hd h).1 hx)
  | scaled _ _ _ => exact convNum_toLabel hd h ((corrNum_number hd h).1 hx)
  | symbolic _ _ => exact convSym_toLabel h (event_set (symbol_event hx))
  | integer _ _ _ => exact convSym_toLabel h (event_set hx)

theorem corr_forth {d : Domain} (hd : d.OK) {x y : Val} (h : d.Corr x y) (hy : d.IsValue y) :
    d.label2value x = .ok y := by
  cases d with
  | numeric _ => exact convNum_toValue hd h ((corrNum_number hd h).2 hy)
  | scaled _ _ _ => exact convNum_toValue hd h ((corrNum_number hd h).2 hy)
  | symbolic _ _ => exact convSym_toValue hd h (event_set (symbol_event hy))
  | integer _ _ _ => exact convSym_toValue hd h (event_set hy)

theorem number_isNumeric {x : Val} (h : x.Number) : x.isNumeric = true := by
  unfold Val.Number at h
  split at h
  · rfl
  · rfl
  · rfl
  · exact h.elim

theorem check_label {d : Domain} {x : Val} (hx : d.IsLabel x) : checkLabel d x = .ok () := by
  cases d with
  | numeric _ => exact if_pos (number_isNumeric hx)
  | scaled _ _ _ => exact if_pos (number_isNumeric hx)
  | symbolic _ ls =>
    refine if_pos ?_
    have hx : x.Symbol ls := hx
    unfold Val.Symbol at hx
    split at hx
    · simpa [Val.asSet] using hx
    · simpa [Val.asSet] using hx.2
    · exact hx.elim
  | integer _ _ _ => rfl

theorem check_value {d : Domain} {x : Val} (hx : d.IsValue x) : checkValue d x = .ok () := by
  cases d with
  | numeric _ => exact if_pos (number_isNumeric hx)
  | scaled _ _ _ => exact if_pos (number_isNumeric hx)
  | symbolic _ ls =>
    have hx : x.Symbol ((List.range ls.length).map fun i : ℕ => Atom.int i) := hx
    cases x with
    | cs c => exact hx.elim
    | rs l => exact hx.elim
    | ev e =>
      cases e with
      | atom a =>
        refine if_pos ?_
        have hx : a ∈ (List.range ls.length).map fun i : ℕ => Atom.int i := hx
        simpa [Val.asSet] using hx
      | list l => exact hx.elim
      | tuple l => exact hx.elim
      | set l => rfl
  | integer _ _ _ => rfl

end Domain

/-- The conversion of all items of an assignment. -/
theorem convert_all {m : Asg} (hm : VMap.WF m) (conv : Domain → Val → Except Err Val)
    (check : Domain → Val → Except Err Unit) (R : Domain → Val → Val → Prop)
    (h : ∀ n v x, (VMap.view m).decl n = some v → (VMap.view m).val n = some x →
      ∃ y, conv v.info x = .ok y ∧ check v.info y = .ok () ∧ R v.info x y) :
    ∃ r : Asg, (do
        let is ← VMap.items m
        let data ← is.mapM fun p : Var Domain × Val => do return (Key.var p.1, ← conv p.1.info p.2)
        Asg.mk? check data []) = .ok r ∧ VMap.WF r ∧
      (VMap.view r).order = (VMap.view m).order ∧
      (∀ n, (VMap.view r).decl n = if (VMap.view m).val n = none then none else (VMap.view m).decl n) ∧
      (∀ n v x, (VMap.view m).decl n = some v → (VMap.view m).val n = some x →
        ∃ y, (VMap.view r).val n = some y ∧ R v.info x y) := by
  obtain ⟨is, h1, h2⟩ := VMap.items_ok hm
  have hex : ∀ i ∈ is, ∃ o : Var Domain × Val, o.1 = i.1 ∧ conv i.1.info i.2 = .ok o.2 ∧
      check i.1.info o.2 = .ok () ∧ R i.1.info i.2 o.2 := by
    intro i hi
    obtain ⟨p, hp, hpi⟩ := forall₂_mem_right h2 hi
    obtain ⟨y, hy⟩ := h p.1 i.1 i.2 hpi.1 (by
      show m.map.lookup p.1 = _
      rw [hpi.2.2]; exact Dict.mem_lookup hm.map hp)
    exact ⟨(i.1, y), rfl, hy⟩
  obtain ⟨ys, hys⟩ := Domain.forall₂_exists hex
  have hnames : (is.map fun p => p.1.name) = m.map.map Prod.fst := by
    clear h1 hex hys
    generalize m.map = l at h2
    induction h2 with
    | nil => rfl
    | cons hp _ ih => rw [List.map_cons, List.map_cons, hp.2.1, ih]
  have hnames' : (ys.map fun p => p.1.name) = m.map.map Prod.fst := by
    rw [← hnames]
    clear h1 h2 hex hnames
    induction hys with
    | nil => rfl
    | cons hp _ ih => rw [List.map_cons, List.map_cons, hp.1, ih]
  have hdata : (is.mapM fun p => do return (Key.var p.1, ← conv p.1.info p.2) :
      Except Err (List (Key Domain × Val))) = .ok (ys.map fun o => (Key.var o.1, o.2)) := by
    clear h1 h2 hex hnames hnames'
    induction hys with
    | nil => rfl
    | cons hp _ ih =>
      rw [List.mapM_cons, ih, List.map_cons]
      simp only [hp.2.1, hp.1, bind, Except.bind, pure, Except.pure]
  have hmk : Asg.mk? check (ys.map fun o => (Key.var o.1, o.2)) []
      = .ok (ys.foldl (fun m p => m.setVar p.1 p.2) (VMap.empty [])) := by
    unfold Asg.mk?
    rw [List.foldlM_map]
    clear h1 h2 hex hnames hnames' hdata
    generalize (VMap.empty [] : Asg) = c
    induction hys generalizing c with
    | nil => rfl
    | @cons i o is ys hp _ ih =>
      rw [List.foldlM_cons, List.foldl_cons, ← ih]
      have : check o.1.info o.2 = .ok () := by rw [hp.1]; exact hp.2.2.1
      simp only [Asg.set, this, bind, Except.bind, VMap.set]
  obtain ⟨g1, g2, g3⟩ := VMap.fold_setVar_spec ys (by rw [hnames']; exact hm.map) (VMap.empty [] : Asg) (empty_wf _)
  have hwf : Dict.WF (ys.map fun p => (p.1.name, p.2)) := by
    unfold Dict.WF
    rw [List.map_map]
    have : (Prod.fst ∘ fun p : Var Domain × Val => (p.1.name, p.2)) = fun p => p.1.name := rfl
    rw [this, hnames']
    exact hm.map
  have hwf' : Dict.WF (ys.map fun p => (p.1.name, p.1)) := by
    unfold Dict.WF
    rw [List.map_map]
    have : (Prod.fst ∘ fun p : Var Domain × Val => (p.1.name, p.1)) = fun p => p.1.name := rfl
    rw [this, hnames']
    exact hm.map
  -- every item of the original has its image in `ys`
  have himg : ∀ n v x, (VMap.view m).decl n = some v → (VMap.view m).val n = some x →
      ∃ o ∈ ys, o.1 = v ∧ R v.info x o.2 := by
    intro n v x hv hx
    have hmem : (n, x) ∈ m.map := Dict.lookup_mem hx
    obtain ⟨i, hi, hni⟩ := Domain.forall₂_mem_left h2 hmem
    obtain ⟨o, ho, hio⟩ := Domain.forall₂_mem_left hys hi
    have e1 : i.1 = v := Option.some.inj (hni.1.symm.trans hv)
    have e2 : i.2 = x := hni.2.2
    refine ⟨o, ho, hio.1.trans e1, ?_⟩
    rw [← e1, ← e2]
    exact hio.2.2.2
  refine ⟨ys.foldl (fun m p => m.setVar p.1 p.2) (VMap.empty []), ?_, g1, ?_, ?_, ?_⟩
  · rw [h1]
    simp only [bind, Except.bind] at hdata ⊢
    rw [hdata]
    exact hmk
  · show (VMap.map _).map Prod.fst = m.map.map Prod.fst
    rw [g3, Dict.keys_update hwf, List.map_map]
    have : (Prod.fst ∘ fun p : Var Domain × Val => (p.1.name, p.2)) = fun p => p.1.name := rfl
    rw [this, hnames']
    simp [VMap.empty]
  · intro n
    show (VMap.vars _).lookup n = if (VMap.view m).val n = none then none else m.vars.lookup n
    rw [g2]
    have e : (VMap.empty [] : Asg).vars.lookup n = none := rfl
    rw [e, Option.none_or]
    cases hn : (VMap.view m).val n with
    | none =>
      rw [if_pos rfl, Dict.lookup_none, List.map_map]
      have : (Prod.fst ∘ fun p : Var Domain × Val => (p.1.name, p.1)) = fun p => p.1.name := rfl
      rw [this, hnames']
      exact VMap.view_val_none.1 hn
    | some x =>
      rw [if_neg (by simp)]
      obtain ⟨v, hv⟩ := Dict.lookup_isSome.2 (hm.declared n (Dict.lookup_isSome.1 ⟨x, hn⟩))
      obtain ⟨o, ho, rfl, _⟩ := himg n v x hv hn
      have : o.1.name = n := hm.names _ (Dict.lookup_mem hv)
      rw [hv, ← this]
      exact Dict.mem_lookup hwf' (List.mem_map.2 ⟨o, ho, rfl⟩)
  · intro n v x hv hx
    obtain ⟨o, ho, rfl, hr⟩ := himg n v x hv hx
    refine ⟨o.2, ?_, hr⟩
    show (VMap.map _).lookup n = _
    rw [g3, Dict.lookup_update hwf]
    have : o.1.name = n := hm.names _ (Dict.lookup_mem hv)
    rw [← this, Dict.mem_lookup hwf (List.mem_map.2 ⟨o, ho, rfl⟩)]
    rfl

end Verif.Vars
