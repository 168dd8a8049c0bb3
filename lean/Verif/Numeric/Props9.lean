import Verif.Numeric.JsonLemmas
import Verif.Numeric.Props5

/-!
# C78: storing numeric distributions
-/

namespace Verif.Num

open Iv Iv.FP Fun

/-- **C78.** A piecewise function with constant and linear pieces, as every cdf and every density is, is read back
as it was written. -/
theorem C78_function_roundtrip (p : PF) (h : ∀ s ∈ p, Storable s) :
    ∃ d, pfToJson p = .ok d ∧ pfFromJson d = .ok p := by
  induction p with
  | nil => exact ⟨⟨[], []⟩, rfl, rfl⟩
  | cons s r ih =>
    obtain ⟨d, h1, h2⟩ := ih (fun t ht => h t (by simp [ht]))
    obtain ⟨hc, hf⟩ := h s (by simp)
    obtain ⟨e, h3, h4⟩ := fn_json hf
    have h5 := cs_json hc
    simp only [pfToJson, bind, Except.bind] at h1
    cases hm : r.mapM (fun s => fnToJson s.2) with
    | error _ => rw [hm] at h1; cases h1
    | ok fs =>
      rw [hm] at h1
      simp only [Except.ok.injEq] at h1
      subst h1
      refine ⟨⟨s.1.toJson :: r.map (fun s => s.1.toJson), e :: fs⟩, ?_, ?_⟩
      · simp [pfToJson, List.mapM_cons, h3, hm, bind, Except.bind, pure, Except.pure]
      · simp only [pfFromJson, bind, Except.bind] at h2
        cases hi : (r.map (fun s => s.1.toJson)).mapM CS.fromJson with
        | error _ => rw [hi] at h2; cases h2
        | ok is =>
          rw [hi] at h2
          cases hg : fs.mapM fnFromJson with
          | error _ => rw [hg] at h2; cases h2
          | ok gs =>
            rw [hg] at h2
            simp only [Except.ok.injEq] at h2
            simp [pfFromJson, List.mapM_cons, h4, h5, hi, hg, bind, Except.bind, pure, Except.pure, h2]

example : ∃ d, pfToJson [(⟨ninf, fin 1, .exc, .exc⟩, .const 0), (co 1 4, .lin (1 / 9) (2 / 9)),
    (⟨fin 4, pinf, .inc, .exc⟩, .const 1)] = .ok d ∧ pfFromJson d = .ok [(⟨ninf, fin 1, .exc, .exc⟩, .const 0),
      (co 1 4, .lin (1 / 9) (2 / 9)), (⟨fin 4, pinf, .inc, .exc⟩, .const 1)] :=
  C78_function_roundtrip _ (by
    simp only [List.mem_cons, List.not_mem_nil, or_false, forall_eq_or_imp, forall_eq, Storable]
    exact ⟨⟨by decide, .inl ⟨_, rfl⟩⟩, ⟨by decide, .inr ⟨_, _, rfl⟩⟩, ⟨by decide, .inl ⟨_, rfl⟩⟩⟩)

/-- **C78.** A fitted distribution is read back as it was: the same settings and the same cdf. -/
theorem C78_fitted_roundtrip {val : ℤ → ℚ} (hval : StrictMono val) (eps : ℚ) (data : List ℤ)
    (leftmost rightmost : Option ℤ) (hl : ∀ v ∈ leftmost, ∀ x ∈ data, v < x)
    (hr : ∀ v ∈ rightmost, ∀ x ∈ data, x < v) (hne : sample data leftmost rightmost ≠ [])
    (settings : List (String × ℚ)) (minSamples : ℤ) :
    ∃ p, fit val eps data leftmost rightmost = .ok p ∧
      ∃ d, numToJson ⟨settings, some ⟨eps, minSamples, some p⟩⟩ = .ok d ∧
        numFromJson d = .ok ⟨settings, some ⟨eps, minSamples, some p⟩⟩ := by
  obtain ⟨p, h1, h2⟩ := fit_storable hval (eps := eps) (loadBuffer_ok hl hr) hne
  obtain ⟨d, h3, h4⟩ := C78_function_roundtrip p h2
  refine ⟨p, h1, ⟨settings, some ⟨eps, minSamples, d⟩⟩, ?_, ?_⟩
  · simp [numToJson, qdToJson, h3, bind, Except.bind]
  · simp [numFromJson, qdFromJson, h4, bind, Except.bind]

example : ∃ p, fit ival (1 / 100) [1, 1, 4, 9] = .ok p ∧
    ∃ d, numToJson ⟨[("precision", 1 / 100)], some ⟨1 / 100, 5, some p⟩⟩ = .ok d ∧
      numFromJson d = .ok ⟨[("precision", 1 / 100)], some ⟨1 / 100, 5, some p⟩⟩ :=
  C78_fitted_roundtrip ival_strictMono _ _ none none (by simp) (by simp) (by simp [sample]) _ _

/-- C78 fails before fitting: a distribution without data is written, but cannot be read. -/
theorem C78_violated_unfitted (settings : List (String × ℚ)) :
    ∃ d, numToJson ⟨settings, none⟩ = .ok d ∧ numFromJson d = .error .typeError :=
  ⟨_, rfl, rfl⟩

/-- C78 fails for functions with a quadratic piece: they are written, but cannot be read. -/
theorem C78_violated_quadratic (I : CS) (hI : I.lower ≤ I.upper) (a b c : ℚ) :
    ∃ d, pfToJson [(I, .quad a b c)] = .ok d ∧ pfFromJson d = .error .keyError := by
  refine ⟨⟨[I.toJson], [[("a", .inr a), ("b", .inr b), ("c", .inr c)]]⟩, rfl, ?_⟩
  have h : fnFromJson [("a", .inr a), ("b", .inr b), ("c", .inr c)] = .error .keyError := rfl
  simp [pfFromJson, List.mapM_cons, cs_json hI, h, bind, Except.bind, pure, Except.pure]

/-- C78 fails for functions with an undefined piece: they cannot be written. -/
theorem C78_violated_undefined (I : CS) : (pfToJson [(I, .undef)]).map (fun _ => ()) = .error .attributeError := rfl

end Verif.Num
