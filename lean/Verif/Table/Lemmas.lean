import Verif.Table.Spec
import Verif.ListAux
import Mathlib.Tactic.FieldSimp
import Mathlib.Tactic.Ring

/-!
# Lemmas about data tables
-/

namespace Verif.Tab

theorem lookup_some {labels : List Cell} {x : Cell} (h : x ∈ labels) :
    ∃ i, lookup labels x = some i ∧ labels[i]? = some x := by
  refine ⟨labels.idxOf x, by unfold lookup; rw [if_pos h], ?_⟩
  exact List.getElem?_idxOf h

theorem lookup_none {labels : List Cell} {x : Cell} (h : x ∉ labels) : lookup labels x = none := by
  unfold lookup; rw [if_neg h]

/-- Cells of the domain are encoded by a number that stands for them. -/
theorem encode_ok {e : Enc} (he : EncOK e) {x : Cell} (hx : InDomain e x) :
    ∃ q, encode e x = .ok (.num q) ∧ Denotes e q x := by
  cases e with
  | dict labels =>
    obtain ⟨i, h1, h2⟩ := lookup_some hx
    refine ⟨i, ?_, i, rfl, h2⟩
    simp only [encode, h1]
  | ident =>
    obtain ⟨q, hq⟩ := Option.isSome_iff_exists.1 hx
    refine ⟨q, ?_, hq⟩
    cases x <;> simp_all [encode, Cell.number]
  | scaled m s =>
    obtain ⟨q, hq⟩ := Option.isSome_iff_exists.1 hx
    refine ⟨(q - m) / s, ?_, ?_⟩
    · cases x <;> simp_all [encode, Cell.number]
    · have hs : s ≠ 0 := he
      show x.number = some _
      rw [hq]
      congr 1
      field_simp
      ring

/-- Without missing values a data frame is encoded like lists. -/
theorem encodeFrame_ok {e : Enc} {x : Cell} (hn : x ≠ .nan) {y : Entry} (h : encode e x = .ok y) :
    encodeFrame e x = .ok y := by
  cases e with
  | dict labels =>
    cases hl : lookup labels x with
    | none => simp [encode, hl] at h
    | some i => cases x <;> simp_all [encodeFrame, encode]
  | ident => cases x <;> simp_all [encodeFrame]
  | scaled m s => cases x <;> simp_all [encodeFrame]

/-- What lists are encoded by. -/
theorem encode_sound {e : Enc} (he : EncOK e) {x : Cell} {y : Entry} (h : encode e x = .ok y) :
    (∃ q, y = .num q ∧ InDomain e x ∧ Denotes e q x) ∨
      x = .nan ∧ (e = .ident ∧ y = .nan ∨ (∃ m s, e = .scaled m s) ∧ y = .num 0) := by
  by_cases hd : InDomain e x
  · obtain ⟨q, h1, h2⟩ := encode_ok he hd
    rw [h] at h1
    cases h1
    exact .inl ⟨q, rfl, hd, h2⟩
  · right
    cases e with
    | dict labels => simp [encode, lookup_none (show x ∉ labels from hd)] at h
    | ident => cases x <;> simp_all [encode, InDomain, Cell.number]
    | scaled m s => cases x <;> simp_all [encode, InDomain, Cell.number]

/-- What data frames are encoded by. -/
theorem encodeFrame_sound {e : Enc} (he : EncOK e) {x : Cell} {y : Entry} (h : encodeFrame e x = .ok y) :
    x = .nan ∧ y = .nan ∨ x ≠ .nan ∧ ∃ q, y = .num q ∧ InDomain e x ∧ Denotes e q x := by
  by_cases hn : x = .nan
  · left
    subst hn
    cases e <;> simp_all [encodeFrame]
  · right
    refine ⟨hn, ?_⟩
    have h' : encode e x = .ok y := by
      cases e with
      | dict labels =>
        cases hl : lookup labels x with
        | none => cases x <;> simp_all [encodeFrame]
        | some i => cases x <;> simp_all [encodeFrame, encode]
      | ident => cases x <;> simp_all [encodeFrame]
      | scaled m s => cases x <;> simp_all [encodeFrame]
    rcases encode_sound he h' with h1 | ⟨h1, -⟩
    · exact h1
    · exact absurd h1 hn

theorem mapM_get {α β : Type} {f : α → Except Err β} {l : List α} {r : List β} (h : l.mapM f = .ok r) :
    r.length = l.length ∧ ∀ (i : ℕ) (a : α), l[i]? = some a → ∃ b, r[i]? = some b ∧ f a = .ok b := by
  have hf := (mapM_ok_iff f l r).1 h
  refine ⟨hf.length_eq.symm, ?_⟩
  intro i a ha
  obtain ⟨hi, rfl⟩ := List.getElem?_eq_some_iff.1 ha
  have hi' : i < r.length := by rw [← hf.length_eq]; exact hi
  exact ⟨r[i], List.getElem?_eq_getElem hi', (List.forall₂_iff_get.1 hf).2 i hi hi'⟩

theorem mapM_all {α β : Type} {f : α → Except Err β} {l : List α} (h : ∀ a ∈ l, ∃ b, f a = .ok b) :
    ∃ r, l.mapM f = .ok r := by
  induction l with
  | nil => exact ⟨[], rfl⟩
  | cons a l ih =>
    obtain ⟨b, hb⟩ := h a (by simp)
    obtain ⟨r, hr⟩ := ih (fun x hx => h x (by simp [hx]))
    exact ⟨b :: r, by rw [List.mapM_cons, hb, hr]; rfl⟩

theorem mapM_congr' {α β : Type} {f g : α → Except Err β} {l : List α} (h : ∀ a ∈ l, f a = g a) :
    l.mapM f = l.mapM g := by
  induction l with
  | nil => rfl
  | cons a l ih =>
    rw [List.mapM_cons, List.mapM_cons, h a (by simp), ih (fun x hx => h x (by simp [hx]))]

theorem zip_get {α β : Type} {l : List α} {r : List β} {i : ℕ} {a : α} {b : β} (ha : l[i]? = some a) (hb : r[i]? = some b) :
    (l.zip r)[i]? = some (a, b) := by
  rw [List.getElem?_zip_eq_some]
  exact ⟨ha, hb⟩

/-- The columns `_preprocess_data` takes from rows. -/
theorem pick_all {n k : ℕ} {rows cols : List (List Cell)} (h : IsTranspose n k rows cols) :
    (List.range k).mapM (pick rows) = .ok cols := by
  rw [mapM_ok_iff, List.forall₂_iff_get]
  refine ⟨by simp [h.cols_length], ?_⟩
  intro i h1 h2
  simp only [List.get_eq_getElem, List.getElem_range]
  unfold pick
  rw [mapM_ok_iff, List.forall₂_iff_get]
  have hcol : cols[i].length = n := h.height _ (List.getElem_mem _)
  refine ⟨by rw [hcol, h.rows_length], ?_⟩
  intro r h3 h4
  simp only [List.get_eq_getElem]
  have := h.same r i
  unfold cellAt at this
  rw [List.getElem?_eq_getElem h3, List.getElem?_eq_getElem h2] at this
  simp only [Option.bind_some] at this
  rw [this, List.getElem?_eq_getElem h4]

end Verif.Tab
