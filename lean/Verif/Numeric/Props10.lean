import Verif.Numeric.Query
import Verif.Numeric.Props4

/-!
# `_crop` of numeric distributions to points, intervals and sets: C37, C79
-/

namespace Verif.Num

open Iv Iv.FP Fun

/-- The interval contains more than one float, or none. -/
def Several (I : CS) : Prop := I.isempty = true ∨ ∃ a b : ℤ, a ≠ b ∧ I.Mem (fin a) ∧ I.Mem (fin b)

theorem Several.size {I : CS} (h : Several I) : I.size ≠ some 1 := by
  unfold CS.size
  rcases h with h | ⟨a, b, hab, ha, hb⟩
  · rw [if_pos h]; simp
  · rw [if_neg (by rw [CS.isempty_false_of_mem ha]; simp), if_neg]
    · simp
    · obtain ⟨lo, up, l, r⟩ := I
      rintro (h | ⟨h, h3⟩)
      · cases lo <;> cases up <;> cases l <;> cases r <;> simp [CS.Mem, FP.lt_def, leb] at h ha hb <;> omega
      · cases lo <;> cases up <;> cases l <;> cases r <;>
          simp [CS.Mem, FP.lt_def, leb, FP.up, CS.itype, Br.code] at h h3 ha hb <;> omega

/-- Cropping to an interval leaves the distribution itself as it is, if the interval does not contain exactly one
float.

Partial: see `C79_violated_crop`. -/
theorem C79_crop_partial (val : ℤ → ℚ) (rnd : ℚ → ℤ) (cdf : PF) (I : CS) (hI : Several I) :
    cropTo val rnd cdf (.interval I) = (crop val cdf I).map (fun c => (c, cdf)) := by
  simp only [cropTo, cropInterval', if_neg hI.size, bind, Except.bind]
  cases crop val cdf I with
  | error x => rfl
  | ok c => rfl

/-- The same for a set of such intervals. -/
theorem C79_crop_set_partial (val : ℤ → ℚ) (rnd : ℚ → ℤ) (cdf : PF) (l : List CS) (hl : ∀ I ∈ l, Several I)
    (c self : PF) (h : cropTo val rnd cdf (.set l) = .ok (c, self)) : self = cdf := by
  have key : ∀ l : List CS, (∀ I ∈ l, Several I) → ∀ cs self, cropAll val cdf l = .ok (cs, self) → self = cdf := by
    intro l
    induction l with
    | nil => intro _ cs self h; cases h; rfl
    | cons I r ih =>
      intro hl cs self h
      simp only [cropAll, cropInterval', if_neg (hl I (by simp)).size, bind, Except.bind] at h
      cases h1 : crop val cdf I with
      | error x => rw [h1] at h; cases h
      | ok c =>
        rw [h1] at h
        simp only at h
        cases h2 : cropAll val cdf r with
        | error x => rw [h2] at h; cases h
        | ok y =>
          rw [h2] at h
          obtain ⟨cs', self'⟩ := y
          cases h
          exact ih (fun J hJ => hl J (by simp [hJ])) _ _ h2
  simp only [cropTo, bind, Except.bind] at h
  cases h1 : cropAll val cdf l with
  | error x => rw [h1] at h; cases h
  | ok y =>
    obtain ⟨cs, s⟩ := y
    rw [h1] at h
    simp only at h
    by_cases hn : l = []
    · rw [if_pos hn] at h; cases h
    · rw [if_neg hn] at h
      cases h2 : merge val rnd cs (some (List.replicate cs.length (some (1 / (cs.length : ℚ))))) with
      | error x => rw [h2] at h; cases h
      | ok m => rw [h2] at h; cases h; exact key l hl _ _ h1

example : Several ⟨fin 2, fin 9, .inc, .exc⟩ ∧ Several ⟨fin 2, fin 2, .exc, .exc⟩ :=
  ⟨.inr ⟨2, 3, by decide, by simp [CS.Mem, FP.lt_def, leb], by simp [CS.Mem, FP.lt_def, leb]⟩, .inl (by decide)⟩

/-- C79 is violated: cropping any distribution to a number, or to an interval with a single float, replaces the
distribution itself by that of the number. -/
theorem C79_violated_crop (val : ℤ → ℚ) (rnd : ℚ → ℤ) (cdf : PF) (n : ℤ) :
    cropTo val rnd cdf (.number n) = .ok (jumpCdf n, jumpCdf n) ∧
    cropTo val rnd cdf (.interval ⟨fin n, fin n, .inc, .inc⟩) = .ok (jumpCdf n, jumpCdf n) := by
  refine ⟨rfl, ?_⟩
  have : (⟨fin n, fin n, .inc, .inc⟩ : CS).size = some 1 := by
    unfold CS.size
    rw [if_neg (by rw [CS.isempty_false_of_mem (x := fin n) (by simp [CS.Mem])]; simp), if_pos (.inl rfl)]
  simp only [cropTo, cropInterval', if_pos this]

/-- A half-open interval whose only float is its upper end: the distribution becomes that of its lower end, which
does not belong to it. -/
theorem C37_violated_outside : (fit ival (1 / 100) [0, 4, 8]).toOption.bind (fun p =>
    (cropTo ival Rat.floor p (.interval ⟨fin 2, fin 3, .exc, .inc⟩)).toOption.map (fun c =>
      [prob ival c.1 (.interval ⟨fin 2, fin 3, .exc, .inc⟩), prob ival c.1 (.interval ⟨fin 2, fin 2, .inc, .inc⟩)]))
    = some [.ok 0, .ok 1] := by decide +kernel

/-- The parts of a set of intervals get equal probabilities, whatever their probabilities were: here 1/4 and 1/2
become 1/2 and 1/2. -/
theorem C37_violated_set_weights : (fit ival (1 / 100) [0, 4, 8]).toOption.bind (fun p =>
    (cropTo ival Rat.floor p (.set [⟨fin 0, fin 2, .inc, .exc⟩, ⟨fin 4, fin 8, .inc, .exc⟩])).toOption.map (fun c =>
      [prob ival p (.interval ⟨fin 0, fin 2, .inc, .exc⟩), prob ival p (.interval ⟨fin 4, fin 8, .inc, .exc⟩),
       prob ival c.1 (.interval ⟨fin 0, fin 2, .inc, .exc⟩), prob ival c.1 (.interval ⟨fin 4, fin 8, .inc, .exc⟩)]))
    = some [.ok (1 / 4), .ok (1 / 2), .ok (1 / 2), .ok (1 / 2)] := by decide +kernel

/-- A set that contains a single value first: the distribution is replaced before it is cropped to the other
intervals, and these are then unsatisfiable, although each of them has positive probability. -/
theorem C37_violated_set_point : (fit ival (1 / 100) [0, 4, 8]).toOption.map (fun p =>
    (prob ival p (.interval ⟨fin 4, fin 8, .inc, .exc⟩),
     (cropTo ival Rat.floor p (.set [⟨fin 2, fin 2, .inc, .inc⟩, ⟨fin 4, fin 8, .inc, .exc⟩])).map (fun _ => ())))
    = some (.ok (1 / 2), .error .unsatisfiable) := by decide +kernel

end Verif.Num
