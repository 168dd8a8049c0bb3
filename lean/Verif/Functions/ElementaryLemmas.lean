import Verif.Functions.ElementarySpec
import Mathlib.Tactic.Linarith

/-!
# Lemmas about the text of lines
-/

namespace Verif.Fun

namespace NumFmt

theorem squeeze_id {s : List Char} (h : ∀ ch ∈ s, ch ≠ ' ') : squeeze s = s := by
  unfold squeeze
  rw [List.filter_eq_self]
  intro ch hc
  simpa using h ch hc

theorem dropWhile_spaces (a : ℕ) (s : List Char) :
    (List.replicate a ' ' ++ s).dropWhile (· = ' ') = s.dropWhile (· = ' ') := by
  induction a with
  | zero => rfl
  | succ a ih => simp [List.replicate_succ, ih]

theorem dropWhile_head {s : List Char} (h : ∀ ch, s.head? = some ch → ch ≠ ' ') : s.dropWhile (· = ' ') = s := by
  cases s with
  | nil => rfl
  | cons a s => simp [h a rfl]

theorem strip_eq (a b : ℕ) {s : List Char} (h1 : ∀ ch, s.head? = some ch → ch ≠ ' ')
    (h2 : ∀ ch, s.getLast? = some ch → ch ≠ ' ') :
    strip (List.replicate a ' ' ++ (s ++ List.replicate b ' ')) = s := by
  unfold strip
  rw [dropWhile_spaces]
  by_cases hs : s = []
  · subst hs
    have := dropWhile_spaces b []
    rw [List.append_nil] at this
    simp [this]
  · have e : (s ++ List.replicate b ' ').dropWhile (· = ' ') = s ++ List.replicate b ' ' := by
      apply dropWhile_head
      rw [List.head?_append_of_ne_nil _ hs]
      exact h1
    rw [e, List.reverse_append, List.reverse_replicate, dropWhile_spaces, dropWhile_head, List.reverse_reverse]
    rwa [List.head?_reverse]

variable {F : NumFmt}

theorem Ok.head (h : F.Ok) (q : ℚ) (r : List Char) : ∀ ch, (F.write q ++ r).head? = some ch → ch ≠ ' ' := by
  intro ch hc
  obtain ⟨a, t, e, -⟩ := h.start q
  rw [e] at hc
  simp at hc
  exact hc ▸ (h.plain q a (by simp [e])).1

theorem Ok.last (h : F.Ok) (q : ℚ) (r : List Char) : ∀ ch, (r ++ F.write q).getLast? = some ch → ch ≠ ' ' := by
  intro ch hc
  obtain ⟨a, t, e, -⟩ := h.start q
  rw [List.getLast?_append_of_ne_nil _ (by simp [e])] at hc
  exact (h.plain q ch (List.mem_of_getLast? hc)).1

theorem Ok.squeezed (h : F.Ok) (q : ℚ) : squeeze (F.write q) = F.write q := squeeze_id fun ch hc => (h.plain q ch hc).1

theorem takeWhile_plain {r : List Char} (h : 'x' ∉ r) : r.takeWhile (fun ch => decide (ch ≠ 'x')) = r := by
  induction r with
  | nil => rfl
  | cons a r ih =>
    rw [List.mem_cons, not_or] at h
    rw [List.takeWhile_cons_of_pos (by simpa using Ne.symm h.1), ih h.2]

theorem dropWhile_plain {r : List Char} (h : 'x' ∉ r) : r.dropWhile (fun ch => decide (ch ≠ 'x')) = [] := by
  induction r with
  | nil => rfl
  | cons a r ih =>
    rw [List.mem_cons, not_or] at h
    rw [List.dropWhile_cons_of_pos (by simpa using Ne.symm h.1), ih h.2]

theorem Ok.parse_line (h : F.Ok) {m : ℚ} (hm : m ≠ 0) {r : List Char} (hr : 'x' ∉ r) {c : ℚ}
    (hc : (if r = [] then .ok 0 else F.read (NumFmt.squeeze r)) = Except.ok c) :
    F.parse (F.write m ++ 'x' :: r) = .ok (.lin m c) := by
  obtain ⟨a, t, e, ha⟩ := h.start m
  have hne : F.write m ≠ [] := by simp [e]
  have hx : ∀ ch ∈ F.write m, decide (ch ≠ 'x') = true := fun ch hc => by simpa using (h.plain m ch hc).2
  have e1 : (F.write m ++ 'x' :: r).dropWhile (fun ch => decide (ch ≠ 'x')) = 'x' :: r := by
    rw [List.dropWhile_append_of_pos hx, List.dropWhile_cons_of_neg (by simp)]
  have e2 : (F.write m ++ 'x' :: r).takeWhile (fun ch => decide (ch ≠ 'x')) = F.write m := by
    rw [List.takeWhile_append_of_pos hx, List.takeWhile_cons_of_neg (by simp), List.append_nil]
  have e3 := takeWhile_plain hr
  unfold parse
  rw [if_neg (by rw [e]; simp [ha])]
  simp only [e1, e2, e3, h.squeezed, if_neg hne, h.back, hc, bind, Except.bind, pure, Except.pure, if_neg hm]

theorem parse_const {s : List Char} (hx : 'x' ∉ s) (hu : ∀ ch, s.head? = some ch → ch ≠ 'u') {c : ℚ}
    (hc : F.read (NumFmt.squeeze s) = .ok c) : F.parse s = .ok (.const c) := by
  have hs : s ≠ "undef.".toList := by
    rintro rfl
    exact hu 'u' rfl rfl
  unfold parse
  rw [if_neg hs]
  simp only [dropWhile_plain hx, hc, bind, Except.bind, pure, Except.pure]

theorem Ok.no_x (h : F.Ok) (q : ℚ) : 'x' ∉ F.write q := fun hc => (h.plain q _ hc).2 rfl

theorem Ok.no_u (h : F.Ok) (q : ℚ) : ∀ ch, (F.write q).head? = some ch → ch ≠ 'u' := by
  intro ch hc
  obtain ⟨a, t, e, ha⟩ := h.start q
  rw [e] at hc
  simp at hc
  exact hc ▸ ha

theorem Ok.text_level (h : F.Ok) (c : ℚ) : ∃ s, F.text (.lin 0 c) = .ok s ∧ F.parse s = .ok (.const c) := by
  rcases lt_trichotomy c 0 with hc | rfl | hc
  · have hc0 : c ≠ 0 := hc.ne
    refine ⟨'-' :: ' ' :: F.write (-c), ?_, ?_⟩
    · have e : F.text (.lin 0 c) = .ok (strip ([' '] ++ (['-', ' '] ++ F.write (-c) ++ []))) := by
        simp [text, hc0, not_lt.2 hc.le, abs_of_neg hc]
      rw [e]
      congr 1
      exact strip_eq 1 0 (s := ['-', ' '] ++ F.write (-c)) (by simp) (h.last _ _)
    · refine parse_const (by simp [h.no_x]) (by simp) ?_
      have e : squeeze ('-' :: ' ' :: F.write (-c)) = '-' :: F.write (-c) := by
        have := h.squeezed (-c)
        simp only [squeeze] at this ⊢
        simpa using this
      rw [e, h.minus _ (by linarith), neg_neg]
  · refine ⟨['0'], by simp [text, strip], parse_const (by simp) (by simp) ?_⟩
    simpa [squeeze] using h.zero
  · have hc0 : c ≠ 0 := hc.ne'
    refine ⟨F.write c, ?_, parse_const (h.no_x c) (h.no_u c) (by rw [h.squeezed, h.back])⟩
    have e : F.text (.lin 0 c) = .ok (strip ([' ', ' '] ++ (F.write c ++ []))) := by
      simp [text, hc0, hc, abs_of_pos hc]
    rw [e]
    congr 1
    refine strip_eq 2 0 (s := F.write c) ?_ (h.last c [])
    have := h.head c []
    rwa [List.append_nil] at this

theorem Ok.text_slope (h : F.Ok) {m : ℚ} (hm : m ≠ 0) (c : ℚ) :
    ∃ s, F.text (.lin m c) = .ok s ∧ F.parse s = .ok (.lin m c) := by
  have hl : F.write m ++ ['x'] ≠ [] := by simp
  rcases lt_trichotomy c 0 with hc | rfl | hc
  · have hc0 : c ≠ 0 := hc.ne
    refine ⟨F.write m ++ 'x' :: ([' ', '-', ' '] ++ F.write (-c)), ?_, ?_⟩
    · have e : F.text (.lin m c) = .ok (strip ([] ++ (F.write m ++ 'x' :: ([' ', '-', ' '] ++ F.write (-c)) ++ []))) := by
        simp [text, hm, hc0, not_lt.2 hc.le, abs_of_neg hc]
      rw [e]
      congr 1
      refine strip_eq 0 0 (h.head m _) ?_
      have := h.last (-c) (F.write m ++ 'x' :: [' ', '-', ' '])
      simpa using this
    · refine h.parse_line hm (by simp [h.no_x]) ?_
      have e : squeeze ([' ', '-', ' '] ++ F.write (-c)) = '-' :: F.write (-c) := by
        have := h.squeezed (-c)
        simp only [squeeze] at this ⊢
        simpa using this
      rw [if_neg (by simp), e, h.minus _ (by linarith), neg_neg]
  · refine ⟨F.write m ++ ['x'], ?_, h.parse_line hm (by simp) (by simp)⟩
    have e : F.text (.lin m 0) = .ok (strip ([] ++ (F.write m ++ ['x'] ++ [' ', ' ']))) := by
      simp [text, hm]
    rw [e]
    congr 1
    exact strip_eq 0 2 (h.head m _) (by simp)
  · have hc0 : c ≠ 0 := hc.ne'
    refine ⟨F.write m ++ 'x' :: ([' ', '+', ' '] ++ F.write c), ?_, ?_⟩
    · have e : F.text (.lin m c) = .ok (strip ([] ++ (F.write m ++ 'x' :: ([' ', '+', ' '] ++ F.write c) ++ []))) := by
        simp [text, hm, hc0, hc, abs_of_pos hc]
      rw [e]
      congr 1
      refine strip_eq 0 0 (h.head m _) ?_
      have := h.last c (F.write m ++ 'x' :: [' ', '+', ' '])
      simpa using this
    · refine h.parse_line hm (by simp [h.no_x]) ?_
      have e : squeeze ([' ', '+', ' '] ++ F.write c) = '+' :: F.write c := by
        have := h.squeezed c
        simp only [squeeze] at this ⊢
        simpa using this
      rw [if_neg (by simp), e, h.plus _ hc]

theorem Ok.parse_junk (h : F.Ok) (v : ℚ) : F.parse (F.write v ++ " = const.".toList) = .error .valueError := by
  have hx : 'x' ∉ F.write v ++ " = const.".toList := by simp [h.no_x]
  have hs : F.write v ++ " = const.".toList ≠ "undef.".toList := by
    obtain ⟨a, t, e, ha⟩ := h.start v
    rw [e]
    simp [ha]
  unfold parse
  rw [if_neg hs]
  simp only [dropWhile_plain hx, bind, Except.bind]
  rw [h.junk _ (by simp [NumFmt.squeeze])]

/-- Marks of the numerator by marks of the denominator. -/
def marks (r : List Char) : ℚ := ((r.count 'a' : ℕ) : ℚ) / ((r.count 'b' : ℕ) : ℚ)

/-- Reading a number with sign. -/
def readMarks : List Char → ℚ
  | '-' :: r => -marks r
  | '+' :: r => marks r
  | r => marks r

/-- A format for examples: the numerator and the denominator in tally marks. -/
def tally : NumFmt where
  write q := (if q < 0 then ['-'] else []) ++ (List.replicate q.num.natAbs 'a' ++ List.replicate q.den 'b')
  read l := if '=' ∈ l then .error .valueError else .ok (readMarks l)

theorem tally_ok : tally.Ok := by
  have hne : ∀ q : ℚ, '=' ∉ tally.write q := by
    intro q
    simp only [tally, List.mem_append, List.mem_replicate]
    split <;> simp
  have hpos : ∀ q : ℚ, 0 ≤ q → ((q.num.natAbs : ℕ) : ℚ) / (q.den : ℚ) = q := by
    intro q hq
    have h1 : ((q.num.natAbs : ℕ) : ℚ) = (q.num : ℚ) := by
      rw [← Int.cast_natCast, Int.natAbs_of_nonneg (Rat.num_nonneg.2 hq)]
    rw [h1, Rat.num_div_den]
  have hneg : ∀ q : ℚ, q < 0 → -((q.num.natAbs : ℕ) : ℚ) / (q.den : ℚ) = q := by
    intro q hq
    have h1 : -((q.num.natAbs : ℕ) : ℚ) = (q.num : ℚ) := by
      have := Int.ofNat_natAbs_of_nonpos (Rat.num_neg.2 hq).le
      rw [← Int.cast_natCast, this, Int.cast_neg, neg_neg]
    rw [h1, Rat.num_div_den]
  have hstart : ∀ q : ℚ, 0 ≤ q → ∃ ch r, tally.write q = ch :: r ∧ ch ≠ '-' ∧ ch ≠ '+' ∧ ch ≠ 'u' := by
    intro q hq
    obtain ⟨n, hn⟩ : ∃ n, q.den = n + 1 := ⟨q.den - 1, by have := q.den_pos; omega⟩
    have hlt : ¬ q < 0 := not_lt.2 hq
    cases hz : q.num.natAbs with
    | zero => exact ⟨'b', List.replicate n 'b', by simp [tally, hlt, hz, hn, List.replicate_succ], by decide⟩
    | succ k => exact ⟨'a', List.replicate k 'a' ++ List.replicate q.den 'b', by simp [tally, hlt, hz, List.replicate_succ],
        by decide⟩
  have hm : ∀ n d : ℕ, marks (List.replicate n 'a' ++ List.replicate d 'b') = (n : ℚ) / d := by
    intro n d
    simp [marks, List.count_replicate]
  have hw : ∀ q : ℚ, 0 ≤ q → marks (tally.write q) = q := by
    intro q hq
    simp only [tally, if_neg (not_lt.2 hq), List.nil_append, hm, hpos q hq]
  refine ⟨?_, ?_, ?_, ?_, ?_, ?_, ?_⟩
  · intro q ch hc
    simp only [tally, List.mem_append, List.mem_replicate] at hc
    rcases hc with hc | hc | hc
    · split at hc <;> simp at hc
      subst hc
      decide
    · rw [hc.2]; decide
    · rw [hc.2]; decide
  · intro q
    by_cases hq : q < 0
    · exact ⟨'-', List.replicate q.num.natAbs 'a' ++ List.replicate q.den 'b', by simp [tally, hq], by decide⟩
    · obtain ⟨ch, r, h1, -, -, h2⟩ := hstart q (not_lt.1 hq)
      exact ⟨ch, r, h1, h2⟩
  · intro q
    have e : tally.read (tally.write q) = .ok (readMarks (tally.write q)) := if_neg (hne q)
    rw [e]
    congr 1
    by_cases hq : q < 0
    · have e2 : tally.write q = '-' :: (List.replicate q.num.natAbs 'a' ++ List.replicate q.den 'b') := by simp [tally, hq]
      rw [e2]
      simp only [readMarks, hm]
      rw [← neg_div, hneg q hq]
    · obtain ⟨ch, r, h1, h2, h3, -⟩ := hstart q (not_lt.1 hq)
      have e2 : readMarks (tally.write q) = marks (tally.write q) := by
        rw [h1]
        unfold readMarks
        split
        · rename_i h; exact absurd (List.cons.inj h).1 h2
        · rename_i h; exact absurd (List.cons.inj h).1 h3
        · rfl
      rw [e2, hw q (not_lt.1 hq)]
  · intro q hq
    have e : tally.read ('+' :: tally.write q) = .ok (marks (tally.write q)) := if_neg (by simp [hne])
    rw [e, hw q hq.le]
  · intro q hq
    have e : tally.read ('-' :: tally.write q) = .ok (-marks (tally.write q)) := if_neg (by simp [hne])
    rw [e, hw q hq.le]
  · decide +kernel
  · intro s hs
    exact if_pos hs

end NumFmt

end Verif.Fun
