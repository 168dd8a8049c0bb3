import Verif.Intervals.Parse

/-!
# C125: reading intervals from text
-/

namespace Verif.Parse

variable {X β : Type}

/-! ## Specification -/

/-- Left delimiters, right delimiters, and whether the bound is closed. -/
def leftDelims : List (Char × Bool) := [('[', true), ('(', false), (']', false)]

def rightDelims : List (Char × Bool) := [(']', true), (')', false), ('[', false)]

/-- `float` does not accept texts with commas or brackets, nor the empty text. -/
def NumOk (num : List Char → Option X) : Prop :=
  ∀ w x, num w = some x → w ≠ [] ∧ ∀ c ∈ w, c ∉ [',', '(', ')', '[', ']']

/-- The text without spaces is that of the interval `I`, up to `rest`: a delimiter, a number, a comma, a number and a
delimiter. -/
def Denotes (num : List Char → Option X) (t : List Char) (I : Ival X) (rest : List Char) : Prop :=
  ∃ ld l r rd, t = ld :: l ++ ',' :: r ++ rd :: rest ∧ (ld, I.left) ∈ leftDelims ∧ (rd, I.right) ∈ rightDelims ∧
    num l = some I.lower ∧ num r = some I.upper ∧ '\n' ∉ l ∧ '\n' ∉ r

/-- There is no right delimiter in the first line of a text. -/
def NoDelim (rest : List Char) : Prop := ∀ c ∈ rest.takeWhile (· ≠ '\n'), c ∉ [')', ']', '[']

/-! ## Lemmas -/

theorem plusThen_none (k : List Char → Option β) : ∀ t, plusThen k t = none ↔
    ∀ p rest, t = p ++ rest → p ≠ [] → '\n' ∉ p → k rest = none
  | [] => by
    simp only [plusThen, true_iff]
    intro p rest h hp
    simp at h
    exact absurd h.1 hp
  | c :: r => by
    have ih := plusThen_none k r
    simp only [plusThen]
    by_cases hc : c = '\n'
    · rw [if_pos hc]
      simp only [true_iff]
      intro p rest h hp hn
      cases p with
      | nil => exact absurd rfl hp
      | cons a p =>
        simp only [List.cons_append, List.cons.injEq] at h
        rw [← h.1, hc] at hn
        simp at hn
    · rw [if_neg hc]
      cases hr : plusThen k r with
      | some q =>
        simp only [false_iff, reduceCtorEq]
        intro h
        have : plusThen k r = none := by
          rw [ih]
          intro p rest hp hne hn
          refine h (c :: p) rest (by rw [hp]; rfl) (by simp) ?_
          simp only [List.mem_cons, not_or]
          exact ⟨fun e => hc e.symm, hn⟩
        rw [hr] at this
        cases this
      | none =>
        simp only [Option.map_eq_none_iff]
        constructor
        · intro hk p rest h hp hn
          cases p with
          | nil => exact absurd rfl hp
          | cons a p =>
            simp only [List.cons_append, List.cons.injEq] at h
            cases p with
            | nil => rw [List.nil_append] at h; rw [← h.2]; exact hk
            | cons b p =>
              exact ih.1 hr (b :: p) rest h.2 (by simp) (fun hm => hn (List.mem_cons_of_mem _ hm))
        · intro h
          refine h [c] r rfl (by simp) ?_
          simpa [eq_comm] using hc

theorem plusThen_some (k : List Char → Option β) : ∀ t p b, plusThen k t = some (p, b) ↔
    ∃ rest, t = p ++ rest ∧ p ≠ [] ∧ '\n' ∉ p ∧ k rest = some b ∧
      ∀ q rest', q ≠ [] → rest = q ++ rest' → '\n' ∉ q → k rest' = none
  | [], p, b => by
    simp only [plusThen, reduceCtorEq, false_iff]
    rintro ⟨rest, h, hp, _⟩
    simp at h
    exact hp h.1
  | c :: r, p, b => by
    have ih := plusThen_some k r
    simp only [plusThen]
    by_cases hc : c = '\n'
    · rw [if_pos hc]
      simp only [reduceCtorEq, false_iff]
      rintro ⟨rest, h, hp, hn, _⟩
      cases p with
      | nil => exact absurd rfl hp
      | cons a p =>
        simp only [List.cons_append, List.cons.injEq] at h
        rw [← h.1, hc] at hn
        simp at hn
    · rw [if_neg hc]
      cases hr : plusThen k r with
      | some q =>
        obtain ⟨q, d⟩ := q
        obtain ⟨rest, h1, h2, h3, h4, h5⟩ := (ih q d).1 hr
        simp only [Option.some.injEq, Prod.mk.injEq]
        constructor
        · rintro ⟨rfl, rfl⟩
          refine ⟨rest, by rw [h1]; rfl, by simp, ?_, h4, h5⟩
          simp only [List.mem_cons, not_or]
          exact ⟨fun e => hc e.symm, h3⟩
        · rintro ⟨rest', g1, g2, g3, g4, g5⟩
          cases p with
          | nil => exact absurd rfl g2
          | cons a p =>
            simp only [List.cons_append, List.cons.injEq] at g1
            obtain ⟨rfl, g1⟩ := g1
            cases p with
            | nil =>
              rw [List.nil_append] at g1
              subst g1
              have := g5 q rest h2 h1 h3
              rw [h4] at this
              cases this
            | cons a' p =>
              have := (ih (a' :: p) b).2 ⟨rest', g1, by simp, fun hm => g3 (List.mem_cons_of_mem _ hm), g4, g5⟩
              rw [hr] at this
              cases this
              exact ⟨rfl, rfl⟩
      | none =>
        have hnone := (plusThen_none k r).1 hr
        simp only [Option.map_eq_some_iff, Prod.mk.injEq]
        constructor
        · rintro ⟨d, hd, rfl, rfl⟩
          refine ⟨r, rfl, by simp, by simpa [eq_comm] using hc, hd, ?_⟩
          intro q rest' hq h hn
          exact hnone q rest' h hq hn
        · rintro ⟨rest', g1, g2, g3, g4, g5⟩
          cases p with
          | nil => exact absurd rfl g2
          | cons a p =>
            simp only [List.cons_append, List.cons.injEq] at g1
            obtain ⟨rfl, g1⟩ := g1
            cases p with
            | nil =>
              rw [List.nil_append] at g1
              subst g1
              exact ⟨b, g4, rfl, rfl⟩
            | cons a' p =>
              have := hnone (a' :: p) rest' g1 (by simp) (fun hm => g3 (List.mem_cons_of_mem _ hm))
              rw [g4] at this
              cases this

theorem delimR_some (t : List Char) (e : Char) : delimR t = some e ↔ ∃ rest, t = e :: rest ∧ e ∈ [')', ']', '['] := by
  cases t with
  | nil => simp [delimR]
  | cons c r =>
    simp only [delimR]
    constructor
    · intro h
      split_ifs at h with hc
      cases h
      exact ⟨r, rfl, by simpa using hc⟩
    · rintro ⟨rest, h, he⟩
      cases h
      rw [if_pos (by simpa using he)]

theorem commaThen_some (k : List Char → Option β) (t : List Char) (b : β) :
    commaThen k t = some b ↔ ∃ rest, t = ',' :: rest ∧ k rest = some b := by
  cases t with
  | nil => simp [commaThen]
  | cons c r =>
    simp only [commaThen]
    by_cases hc : c = ','
    · subst hc; simp
    · rw [if_neg hc]
      simp [hc]

theorem noDelim_iff : ∀ rest : List Char, NoDelim rest ↔
    ∀ x c y, rest = x ++ c :: y → '\n' ∉ x → c ∉ [')', ']', '[']
  | [] => by simp [NoDelim]
  | a :: r => by
    have ih := noDelim_iff r
    unfold NoDelim at *
    rw [List.takeWhile_cons]
    by_cases ha : a = '\n'
    · subst ha
      simp only [ne_eq, not_true_eq_false, decide_false, Bool.false_eq_true, if_false, List.not_mem_nil, false_implies,
        implies_true, true_iff]
      intro x c y h hx
      cases x with
      | nil => simp at h; rw [← h.1]; decide
      | cons b x => simp at h hx; exact absurd h.1 hx.1
    · have : (decide (a ≠ '\n')) = true := by simpa using ha
      rw [if_pos this]
      constructor
      · intro h x c y he hx
        cases x with
        | nil =>
          simp only [List.nil_append, List.cons.injEq] at he
          exact he.1 ▸ h a List.mem_cons_self
        | cons b x =>
          simp only [List.cons_append, List.cons.injEq] at he
          exact ih.1 (fun c hc => h c (List.mem_cons_of_mem _ hc)) x c y he.2 (fun hm => hx (List.mem_cons_of_mem _ hm))
      · intro h c hc
        rcases List.mem_cons.1 hc with rfl | hc
        · exact h [] c r rfl (by simp)
        · refine ih.2 ?_ c hc
          intro x d y he hx
          refine h (a :: x) d y (by rw [he]; rfl) ?_
          simp only [List.mem_cons, not_or]
          exact ⟨fun e => ha e.symm, hx⟩

theorem inner_some (t r : List Char) (e : Char) : plusThen delimR t = some (r, e) ↔
    ∃ rest, t = r ++ e :: rest ∧ r ≠ [] ∧ '\n' ∉ r ∧ e ∈ [')', ']', '['] ∧ NoDelim rest := by
  rw [plusThen_some]
  constructor
  · rintro ⟨rest, h1, h2, h3, h4, h5⟩
    obtain ⟨rest, rfl, he⟩ := (delimR_some _ _).1 h4
    refine ⟨rest, h1, h2, h3, he, (noDelim_iff _).2 ?_⟩
    intro x c y hx hn hc
    have hen : e ≠ '\n' := by rintro rfl; revert he; decide
    have := h5 (e :: x) (c :: y) (by simp) (by rw [hx]; rfl) (by
      simp only [List.mem_cons, not_or]
      exact ⟨fun h => hen h.symm, hn⟩)
    rw [(delimR_some (c :: y) c).2 ⟨y, rfl, hc⟩] at this
    cases this
  · rintro ⟨rest, h1, h2, h3, h4, h5⟩
    refine ⟨e :: rest, h1, h2, h3, (delimR_some _ _).2 ⟨rest, rfl, h4⟩, ?_⟩
    intro q rest' hq h hn
    cases q with
    | nil => exact absurd rfl hq
    | cons a q =>
      simp only [List.cons_append, List.cons.injEq] at h
      cases hk : delimR rest' with
      | none => rfl
      | some d =>
        obtain ⟨z, rfl, hd⟩ := (delimR_some _ _).1 hk
        exact absurd hd ((noDelim_iff rest).1 h5 q d z h.2 (fun hm => hn (List.mem_cons_of_mem _ hm)))

/-- The match of a text that is an interval followed by `rest`. -/
theorem match_of {t l r rest : List Char} {ld rd : Char} (ht : t = ld :: l ++ ',' :: r ++ rd :: rest)
    (hld : ld ∈ ['[', '(', ']']) (hrd : rd ∈ [')', ']', '[']) (hl : l ≠ []) (hr : r ≠ []) (hln : '\n' ∉ l) (hrn : '\n' ∉ r)
    (hrc : ',' ∉ r) (hrest : NoDelim rest) : matchInt t = some (ld, l, r, rd) := by
  subst ht
  have hin : plusThen delimR (r ++ rd :: rest) = some (r, rd) := (inner_some _ _ _).2 ⟨rest, rfl, hr, hrn, hrd, hrest⟩
  have hout : plusThen (commaThen (plusThen delimR)) (l ++ ',' :: (r ++ rd :: rest)) = some (l, (r, rd)) := by
    refine (plusThen_some _ _ _ _).2 ⟨_, rfl, hl, hln, (commaThen_some _ _ _).2 ⟨_, rfl, hin⟩, ?_⟩
    intro q rest' hq h hn
    cases hk : commaThen (plusThen delimR) rest' with
    | none => rfl
    | some d =>
      exfalso
      obtain ⟨u, rfl, hu⟩ := (commaThen_some _ _ _).1 hk
      obtain ⟨r', e'⟩ := d
      obtain ⟨z, rfl, _, hr'n, he', _⟩ := (inner_some _ _ _).1 hu
      cases q with
      | nil => exact hq rfl
      | cons a q =>
        simp only [List.cons_append, List.cons.injEq] at h
        obtain ⟨_, h⟩ := h
        rcases List.append_eq_append_iff.1 h with ⟨b, hb1, hb2⟩ | ⟨b, hb1, hb2⟩
        · cases b with
          | nil =>
            simp only [List.nil_append, List.cons.injEq] at hb2
            rw [hb2.1] at hrd
            revert hrd; decide
          | cons f b =>
            simp only [List.cons_append, List.cons.injEq] at hb2
            refine (noDelim_iff rest).1 hrest (b ++ ',' :: r') e' z (by rw [hb2.2]; simp) ?_ he'
            have : '\n' ∉ b := by
              intro hm
              apply hn
              rw [hb1]
              simp [hm]
            simp [this, hr'n]
        · cases b with
          | nil =>
            simp only [List.nil_append, List.cons.injEq] at hb2
            rw [← hb2.1] at hrd
            revert hrd; decide
          | cons f b =>
            simp only [List.cons_append, List.cons.injEq] at hb2
            apply hrc
            rw [hb1, hb2.1]
            simp
  have hld' : ld = '(' ∨ ld = '[' ∨ ld = ']' := by
    simp only [List.mem_cons, List.not_mem_nil, or_false] at hld
    tauto
  simp only [List.cons_append, List.append_assoc, matchInt]
  rw [if_pos hld']
  rw [hout]
  rfl

theorem match_some {t l r : List Char} {ld rd : Char} (h : matchInt t = some (ld, l, r, rd)) :
    ∃ rest, t = ld :: l ++ ',' :: r ++ rd :: rest ∧ ld ∈ ['[', '(', ']'] ∧ rd ∈ [')', ']', '['] ∧ '\n' ∉ l ∧ '\n' ∉ r ∧
      NoDelim rest := by
  cases t with
  | nil => simp [matchInt] at h
  | cons c t =>
    simp only [matchInt] at h
    split_ifs at h with hc
    simp only [Option.map_eq_some_iff, Prod.mk.injEq] at h
    obtain ⟨⟨l', r', d'⟩, hp, rfl, rfl, rfl, rfl⟩ := h
    obtain ⟨rest, h1, _, h3, h4, _⟩ := (plusThen_some _ _ _ _).1 hp
    obtain ⟨u, rfl, hu⟩ := (commaThen_some _ _ _).1 h4
    obtain ⟨z, rfl, _, g3, g4, g5⟩ := (inner_some _ _ _).1 hu
    refine ⟨z, by rw [h1]; simp, ?_, g4, h3, g3, g5⟩
    simp only [List.mem_cons, List.not_mem_nil, or_false]
    tauto

theorem split_at (P : Char → Prop) : ∀ (x y : List Char) (c d : Char) (u v : List Char), (∀ z ∈ x, ¬ P z) → (∀ z ∈ y, ¬ P z) →
    P c → P d → x ++ c :: u = y ++ d :: v → x = y ∧ c = d ∧ u = v
  | [], [], c, d, u, v, _, _, _, _, h => by simpa using h
  | [], b :: y, c, d, u, v, _, hy, hc, _, h => by
    simp only [List.nil_append, List.cons_append, List.cons.injEq] at h
    exact absurd (h.1 ▸ hc) (hy b List.mem_cons_self)
  | a :: x, [], c, d, u, v, hx, _, _, hd, h => by
    simp only [List.nil_append, List.cons_append, List.cons.injEq] at h
    exact absurd (h.1 ▸ hd) (hx a List.mem_cons_self)
  | a :: x, b :: y, c, d, u, v, hx, hy, hc, hd, h => by
    simp only [List.cons_append, List.cons.injEq] at h
    obtain ⟨h1, h2⟩ := split_at P x y c d u v (fun z hz => hx z (List.mem_cons_of_mem _ hz))
      (fun z hz => hy z (List.mem_cons_of_mem _ hz)) hc hd h.2
    exact ⟨by rw [h.1, h1], h2⟩

/-! ## Theorems -/

/-- C125: which texts are read, and as what: `∅` as the empty interval, and texts that after removing spaces and replacing `∞`
begin with the text of an interval, if in the rest of the line there is no other right delimiter.  All other texts are a
`ValueError`. -/
theorem C125_accepts {num : List Char → Option X} (hnum : NumOk num) (zero : X) (s : List Char) (I : Ival X) :
    (fromString num zero s = .ok I ↔ (s = ['∅'] ∧ I = ⟨zero, zero, false, false⟩) ∨
      (s ≠ ['∅'] ∧ ∃ rest, Denotes num (clean s) I rest ∧ NoDelim rest)) ∧
    (∀ e, fromString num zero s = .error e → e = .valueError) := by
  refine ⟨?_, ?_⟩
  · unfold fromString
    by_cases hs : s = ['∅']
    · simp [hs, eq_comm]
    · rw [if_neg hs]
      simp only [hs, false_and, false_or, ne_eq, not_false_eq_true, true_and]
      constructor
      · intro h
        cases hm : matchInt (clean s) with
        | none => rw [hm] at h; cases h
        | some q =>
          obtain ⟨ld, l, r, rd⟩ := q
          rw [hm] at h
          simp only at h
          obtain ⟨rest, h1, h2, h3, h4, h5, h6⟩ := match_some hm
          cases hl : num l with
          | none => rw [hl] at h; cases h
          | some a =>
            cases hr : num r with
            | none => rw [hl, hr] at h; cases h
            | some b =>
              rw [hl, hr] at h
              simp only [Except.ok.injEq] at h
              subst h
              refine ⟨rest, ⟨ld, l, r, rd, h1, ?_, ?_, hl, hr, h4, h5⟩, h6⟩
              · simp only [List.mem_cons, List.not_mem_nil, or_false] at h2
                rcases h2 with rfl | rfl | rfl <;> simp [leftDelims]
              · simp only [List.mem_cons, List.not_mem_nil, or_false] at h3
                rcases h3 with rfl | rfl | rfl <;> simp [rightDelims]
      · rintro ⟨rest, ⟨ld, l, r, rd, h1, h2, h3, hl, hr, h4, h5⟩, h6⟩
        have hld : ld ∈ ['[', '(', ']'] ∧ I.left = decide (ld = '[') := by
          simp only [leftDelims, List.mem_cons, Prod.mk.injEq, List.not_mem_nil, or_false] at h2
          rcases h2 with ⟨rfl, h⟩ | ⟨rfl, h⟩ | ⟨rfl, h⟩ <;> rw [h] <;> decide
        have hrd : rd ∈ [')', ']', '['] ∧ I.right = decide (rd = ']') := by
          simp only [rightDelims, List.mem_cons, Prod.mk.injEq, List.not_mem_nil, or_false] at h3
          rcases h3 with ⟨rfl, h⟩ | ⟨rfl, h⟩ | ⟨rfl, h⟩ <;> rw [h] <;> decide
        have hrc : ',' ∉ r := fun hm => (hnum r _ hr).2 ',' hm (by simp)
        rw [match_of h1 hld.1 hrd.1 (hnum l _ hl).1 (hnum r _ hr).1 h4 h5 hrc h6]
        simp only [hl, hr]
        rw [← hld.2, ← hrd.2]
  · intro e h
    unfold fromString at h
    split_ifs at h
    split at h
    · cases h; rfl
    · split at h
      · cases h
      · cases h; rfl

/-- C125 for texts that are nothing but the text of an interval, with any number of spaces: they are read as this interval, and
as the set with this interval.  Missing: that other texts are refused, which is false. -/
theorem C125_read_partial {num : List Char → Option X} (hnum : NumOk num) (zero : X) (s : List Char) (I : Ival X)
    (h : Denotes num (clean s) I []) : fromString num zero s = .ok I ∧ realSetOf num zero s = .ok [I] := by
  have hok : fromString num zero s = .ok I := by
    refine ((C125_accepts hnum zero s I).1).2 (.inr ⟨?_, [], h, by simp [NoDelim]⟩)
    rintro rfl
    obtain ⟨ld, l, r, rd, h1, -⟩ := h
    have := congrArg List.length h1
    simp [clean] at this
  exact ⟨hok, by simp only [realSetOf, hok]; rfl⟩

/-- A part of `float` for examples: single digits, and `inf`. -/
def digit (w : List Char) : Option Int :=
  if w = ['i', 'n', 'f'] then some 1000 else if w = ['-', 'i', 'n', 'f'] then some (-1000)
  else match w with
    | [c] => if c.isDigit then some ((c.toNat : Int) - 48) else none
    | _ => none

theorem digit_ok : NumOk digit := by
  intro w x h
  unfold digit at h
  split_ifs at h with h1 h2
  · subst h1; exact ⟨by simp, by decide⟩
  · subst h2; exact ⟨by simp, by decide⟩
  · split at h
    · rename_i c
      split_ifs at h with hc
      refine ⟨by simp, ?_⟩
      intro d hd
      simp only [List.mem_singleton] at hd
      subst hd
      intro hm
      simp only [List.mem_cons, List.not_mem_nil, or_false] at hm
      rcases hm with rfl | rfl | rfl | rfl | rfl <;> revert hc <;> decide
    · cases h

example : Denotes digit (clean "( -∞, 3 ]".toList) ⟨-1000, 3, false, true⟩ [] ∧
    fromString digit 0 "( -∞, 3 ]".toList = .ok ⟨-1000, 3, false, true⟩ ∧
    fromString digit 0 "[1;2]".toList = .error .valueError := by
  refine ⟨⟨'(', "-inf".toList, ['3'], ']', ?_⟩, ?_, ?_⟩ <;> decide +kernel

/-- Disagreement: text behind an interval is ignored, so that a text which does not denote an interval is read as one, and the
second of two lines is lost. -/
theorem C125_violated_rest :
    fromString digit 0 "[0,1]5 or so".toList = .ok ⟨0, 1, true, true⟩ ∧
    fromString digit 0 "[0,1]\n[2,3]".toList = .ok ⟨0, 1, true, true⟩ := by
  decide +kernel

/-- Disagreement: the empty set is not recognised if there is a space in the text. -/
theorem C125_violated_empty_space : fromString digit 0 "∅ ".toList = .error .valueError := by
  decide +kernel

/-- Disagreement: the text of a union of two intervals, as `str` writes it, cannot be read as a union: it is a `ValueError`,
whatever the intervals are. -/
theorem C125_violated_union {num : List Char → Option X} (hnum : NumOk num) (zero : X) {s u v : List Char} {I J : Ival X}
    (hu : Denotes num u I []) (hv : Denotes num v J []) (hs : clean s = u ++ '∪' :: v) :
    realSetOf num zero s = .error .valueError := by
  have hne : s ≠ ['∅'] := by
    rintro rfl
    obtain ⟨ld, l, r, rd, h1, -⟩ := hu
    have := congrArg List.length hs
    rw [h1] at this
    simp [clean] at this
  have key : ∀ K, fromString num zero s ≠ .ok K := by
    intro K hK
    rcases ((C125_accepts hnum zero s K).1).1 hK with ⟨h, _⟩ | ⟨_, rest, hd, hn⟩
    · exact hne h
    · obtain ⟨ld, l, r, rd, h1, -, h3, hl, hr, hln, hrn⟩ := hu
      obtain ⟨ld', l', r', rd', g1, g2, g3, gl, gr, gln, grn⟩ := hv
      obtain ⟨kd, a, b, ke, k1, -, k3, ka, kb, -, -⟩ := hd
      rw [hs, h1, g1] at k1
      simp only [List.cons_append, List.append_assoc, List.cons.injEq, List.nil_append] at k1
      obtain ⟨_, k1⟩ := k1
      have hca : ',' ∉ a := fun hm => (hnum a _ ka).2 ',' hm (by simp)
      have hcl : ',' ∉ l := fun hm => (hnum l _ hl).2 ',' hm (by simp)
      obtain ⟨-, -, k2⟩ := split_at (fun c => c = ',') l a _ _ _ _ (fun z hz e => hcl (e ▸ hz)) (fun z hz e => hca (e ▸ hz))
        rfl rfl k1
      have hbr : ∀ w x, num w = some x → ∀ c ∈ w, ¬ (c ∈ [')', ']', '[']) := by
        intro w x hw c hc hm
        apply (hnum w x hw).2 c hc
        simp only [List.mem_cons, List.not_mem_nil, or_false] at hm ⊢
        tauto
      have hright : ∀ (c : Char) (x : Bool), (c, x) ∈ rightDelims → c ∈ [')', ']', '['] := by
        intro c x hc
        simp only [rightDelims, List.mem_cons, Prod.mk.injEq, List.not_mem_nil, or_false] at hc ⊢
        tauto
      obtain ⟨-, -, k4⟩ := split_at (fun c => c ∈ [')', ']', '[']) r b _ _ _ _ (hbr r _ hr) (hbr b _ kb)
        (hright _ _ h3) (hright _ _ k3) k2
      refine (noDelim_iff rest).1 hn ('∪' :: ld' :: (l' ++ ',' :: r')) rd' [] (by rw [← k4]; simp) ?_ (hright _ _ g3)
      have hld : ld' ≠ '\n' := by
        rintro rfl
        simp only [leftDelims, List.mem_cons, Prod.mk.injEq, List.not_mem_nil, or_false] at g2
        rcases g2 with ⟨h, -⟩ | ⟨h, -⟩ | ⟨h, -⟩ <;> revert h <;> decide
      simp only [List.mem_cons, List.mem_append, not_or]
      exact ⟨by decide, fun h => hld h.symm, gln, by decide, grn⟩
  unfold realSetOf
  cases h : fromString num zero s with
  | ok K => exact absurd h (key K)
  | error e =>
    rw [(C125_accepts hnum zero s I).2 e h]
    rfl

example : clean "[0,1] ∪ [3,4)".toList = "[0,1]".toList ++ '∪' :: "[3,4)".toList ∧ Denotes digit "[0,1]".toList ⟨0, 1, true, true⟩ [] ∧
    Denotes digit "[3,4)".toList ⟨3, 4, true, false⟩ [] := by
  refine ⟨by decide +kernel, ⟨'[', ['0'], ['1'], ']', ?_⟩, ⟨'[', ['3'], ['4'], ')', ?_⟩⟩ <;> decide +kernel

end Verif.Parse
