import Verif.Numeric.QueryLemmas3
import Verif.Numeric.QuerySpec
import Verif.Numeric.Props4

/-!
# Properties of the queries of numeric distributions

C74 (probabilities of intervals and sets).

`val n` is the number of the `n`-th finite float, `rnd` rounds a number to a float.
-/

namespace Verif.Num

open Iv Iv.FP Fun

/-! ## C74 -/

/-- The probability of an interval without any float is 0. -/
theorem C74_empty (val : ℤ → ℚ) {cdf : PF} {d : Dens} (hd : pdf cdf = .ok d) {I : CS} (hI : I.isempty = true) :
    prob val cdf (.interval I) = .ok 0 := by
  have : ∀ l : List CS, RS.intersects l [I] = false := by
    intro l
    rw [RS.intersects, List.any_eq_false]
    intro s _
    simp [CS.intersects, hI]
  simp [prob, pInterval, hd, bind, Except.bind, this]

example : prob ival (jumpCdf 4) (.interval ⟨fin 4, fin 4, .exc, .exc⟩) = .ok 0 :=
  C74_empty ival (d := impulse _) rfl (by decide)

/-- Probabilities from a cdf without jumps, which is 0 before the first knot and 1 from the last knot on,
constant or increasing between them, and takes a value between 0 and 1: the probability of an interval is the
difference of the cdf values at its bounds, 0 and 1 at the infinities. -/
theorem C74_continuous {val : ℤ → ℚ} (hval : StrictMono val) (knots : List (ℤ × Fn)) (F : ℤ → ℚ)
    (hincr : knots.Pairwise (fun s t => s.1 < t.1))
    (hpieces : ∀ s ∈ knots, (∃ c, s.2 = .const c) ∨ ∃ m c, 0 < m ∧ s.2 = .lin m c)
    (hone : ∃ z, knots.getLast? = some (z, .const 1))
    (hF : ∀ n, (tile ninf (.const 0) knots pinf).eval val n = .ok (some (F n)))
    (hcont : ∀ s ∈ knots, (tileAt (.const 0) knots (s.1 - 1)).eval (val s.1) = s.2.eval (val s.1))
    (hmid : ∃ n, 0 < F n ∧ F n < 1) (I : CS) {m : ℤ} (hm : I.Mem (fin m)) :
    prob val (tile ninf (.const 0) knots pinf) (.interval I) = .ok (probOf F F I) := by
  have hF' : ∀ n, (tileAt (.const 0) knots n).eval (val n) = some (F n) := fun n => by
    have := hF n
    rw [tile_eval] at this
    simpa using this
  have h : ContCdf val knots F := ⟨hincr, hpieces, hone, hcont, hF'⟩
  have h2 : 2 ≤ knots.length := by
    obtain ⟨z, hz⟩ := hone
    obtain ⟨n, hn0, hn1⟩ := hmid
    match knots, hz, hF' n with
    | [], hz, _ => simp at hz
    | [s], hz, hn =>
      simp only [List.getLast?_singleton, Option.some.injEq] at hz
      rw [hz] at hn
      simp only [tileAt] at hn
      split at hn <;> simp only [Fn.eval, Option.some.injEq] at hn <;> linarith
    | _ :: _ :: _, _, _ => simp
  rw [prob, h.p hval h2 hmid hm, probOf]
  simp

example : prob ival (tile ninf (.const 0) [(0, .lin (1 / 10) 0), (10, .const 1)] pinf)
    (.interval ⟨fin 3, fin 7, .inc, .exc⟩) = .ok (4 / 10) := by
  rw [C74_continuous ival_strictMono _ (fun n => if n < 0 then 0 else if n < 10 then n / 10 else 1) (by simp)
    (by simp) ⟨10, rfl⟩ (fun n => by
      rw [tile_eval]
      simp only [tileAt]
      split_ifs <;> simp [Fn.eval, ival] <;> ring) (by simp [tileAt, Fn.eval, ival]) ⟨3, by norm_num, by norm_num⟩
    ⟨fin 3, fin 7, .inc, .exc⟩ (m := 3) (by simp [CS.Mem, FP.lt_def, leb])]
  simp only [probOf, below]
  norm_num

/-- Probabilities from a cdf that was fitted to any sample with at least two different values: for every
interval the probability that the cdf gives it, counting the mass of a duplicated minimum.

Partial: an interval that begins with the least sample is only covered if that sample occurs once, see
`C74_violated_duplicated_minimum`. -/
theorem C74_fit_partial {val : ℤ → ℚ} (hval : StrictMono val) (eps : ℚ) (data : List ℤ)
    (leftmost rightmost : Option ℤ) (hl : ∀ v ∈ leftmost, ∀ x ∈ data, v < x)
    (hr : ∀ v ∈ rightmost, ∀ x ∈ data, x < v) {lo hi : ℤ}
    (hlo : lo ∈ sample data leftmost rightmost) (hhi : hi ∈ sample data leftmost rightmost)
    (hlt : lo < hi) (hmin : ∀ x ∈ sample data leftmost rightmost, lo ≤ x)
    (hmax : ∀ x ∈ sample data leftmost rightmost, x ≤ hi) :
    ∃ p F, fit val eps data leftmost rightmost = .ok p ∧ (∀ n, p.eval val n = .ok (some (F n))) ∧
      F lo = rank (sample data leftmost rightmost) lo ∧
      ∀ (I : CS) (m : ℤ), I.Mem (fin m) →
        (I.lower = fin lo → I.left = .inc → (sample data leftmost rightmost).count lo = 1) →
        prob val p (.interval I) = .ok (probOf F (fun n => if n = lo then 0 else F n) I) := by
  have hs : loadBuffer data leftmost rightmost = .ok (sample data leftmost rightmost) := loadBuffer_ok hl hr
  obtain ⟨p, F, hp, heval, hrank, h⟩ := fitCdf_of hval (eps := eps) hs hlo hhi hlt hmin hmax
  refine ⟨p, F, hp, heval, hrank, fun I m hm hcase => ?_⟩
  rw [prob, h.p hm]
  obtain ⟨hb1, hb2⟩ := mem_bounds hm
  have he := CS.isempty_false_of_mem hm
  have hz := h.zero
  have ho := h.one
  have hFlo : I.lower = fin lo → I.left = .inc → F lo = 0 := fun h1 h2 => by
    rw [hrank]; exact rank_single hmin (hcase h1 h2)
  have hempty : I.upper = fin lo → I.lower = fin lo → I.left = .inc ∧ I.right = .inc := by
    intro h1 h2
    obtain ⟨h3, h4⟩ := hm
    rw [h1] at h4; rw [h2] at h3
    simp only [FP.lt_def, leb, fin.injEq] at h3 h4
    grind
  clear hcase hm
  obtain ⟨a, b, l, r⟩ := I
  simp only [probOf, CS.intersects, he, FP.lt_def, FP.le_def, gt_iff_lt, Except.ok.injEq] at *
  cases a <;> cases b <;> cases l <;> cases r <;> simp [leb, below] at * <;>
    grind

example : ∃ (p : PF) (F : ℤ → ℚ), fit ival (1 / 100) [1, 1, 4, 9] = .ok p ∧ (∀ n, p.eval ival n = .ok (some (F n))) ∧
    prob ival p (.interval ⟨fin 0, fin 4, .inc, .inc⟩) = .ok (F 4) := by
  obtain ⟨p, F, h1, h2, h3, h4⟩ := C74_fit_partial ival_strictMono (1 / 100) [1, 1, 4, 9] none none (by simp) (by simp)
    (lo := 1) (hi := 9) (by decide) (by decide) (by decide) (by decide) (by decide)
  refine ⟨p, F, h1, h2, ?_⟩
  obtain ⟨p', F', g1, g2, -, g3, -⟩ := C35_fit ival_strictMono (1 / 100) [1, 1, 4, 9] none none (by simp) (by simp)
    (lo := 1) (hi := 9) (by decide) (by decide) (by decide) (by decide) (by decide)
  obtain rfl : p = p' := by rw [h1] at g1; exact Except.ok.inj g1
  have : F = F' := by
    funext n
    have := (h2 n).symm.trans (g2 n)
    simpa using this
  rw [h4 _ 4 (by simp [CS.Mem, FP.lt_def, leb]) (by simp)]
  simp [probOf, below, this, g3]

/-- A set of intervals gets the sum of their probabilities. -/
theorem C74_set (val : ℤ → ℚ) (cdf : PF) (l : List CS) (q : CS → ℚ)
    (h : ∀ I ∈ l, prob val cdf (.interval I) = .ok (q I)) : prob val cdf (.set l) = .ok (l.map q).sum := by
  have : l.mapM (pInterval val cdf) = .ok (l.map q) := by
    induction l with
    | nil => rfl
    | cons I r ih =>
      have h1 : pInterval val cdf I = .ok (q I) := h I (by simp)
      simp [List.mapM_cons, h1, ih (fun J hJ => h J (by simp [hJ])), bind, Except.bind, pure, Except.pure]
  simp [prob, this, bind, Except.bind]

example : prob ival (jumpCdf 4) (.set [⟨fin 0, fin 2, .inc, .inc⟩, ⟨fin 3, fin 9, .inc, .inc⟩]) = .ok 1 := by
  rw [C74_set ival _ _ (fun I => if I.lower = fin 0 then 0 else 1) (by
    simp only [List.mem_cons, List.not_mem_nil, or_false, forall_eq_or_imp, forall_eq]
    exact ⟨by decide +kernel, by decide +kernel⟩)]
  simp

/-- A fitted distribution gives probabilities: every interval that contains a float gets one from 0 to 1, and the
real line gets 1. -/
theorem C74_range {val : ℤ → ℚ} (hval : StrictMono val) (eps : ℚ) (data : List ℤ)
    (leftmost rightmost : Option ℤ) (hl : ∀ v ∈ leftmost, ∀ x ∈ data, v < x)
    (hr : ∀ v ∈ rightmost, ∀ x ∈ data, x < v) {lo hi : ℤ}
    (hlo : lo ∈ sample data leftmost rightmost) (hhi : hi ∈ sample data leftmost rightmost)
    (hlt : lo < hi) (hmin : ∀ x ∈ sample data leftmost rightmost, lo ≤ x)
    (hmax : ∀ x ∈ sample data leftmost rightmost, x ≤ hi) :
    ∃ p, fit val eps data leftmost rightmost = .ok p ∧
      prob val p (.interval ⟨ninf, pinf, .exc, .exc⟩) = .ok 1 ∧
      ∀ (I : CS) (m : ℤ), I.Mem (fin m) → ∃ q, prob val p (.interval I) = .ok q ∧ 0 ≤ q ∧ q ≤ 1 := by
  have hs : loadBuffer data leftmost rightmost = .ok (sample data leftmost rightmost) := loadBuffer_ok hl hr
  obtain ⟨p, F, hp, heval, hrank, h⟩ := fitCdf_of hval (eps := eps) hs hlo hhi hlt hmin hmax
  have h0 : ∀ n, 0 ≤ F n := fun n => by
    rw [← h.zero (min n (lo - 1)) (by omega)]; exact h.mono (min_le_left _ _)
  have h1 : ∀ n, F n ≤ 1 := fun n => by
    rw [← h.one (max n hi) (le_max_right _ _)]; exact h.mono (le_max_left _ _)
  refine ⟨p, hp, ?_, fun I m hm => ?_⟩
  · rw [prob, h.p (m := 0) (by simp [CS.Mem, FP.lt_def, leb]), if_pos]
    · simp [below]
    · exact intersects_overlap (n := lo) (m := 0) (by simp [CS.Mem, FP.lt_def, leb]) le_rfl
        (by simp [FP.lt_def, leb]; have := h.lt; omega) (FP.ninf_le _) (by simp [FP.lt_def, leb])
  · refine ⟨_, h.p hm, ?_⟩
    split
    · obtain ⟨hb1, hb2⟩ := mem_bounds hm
      obtain ⟨x, y, l, r⟩ := I
      simp only at hb1 hb2 ⊢
      cases x with
      | ninf => cases y <;> simp [FP.le_def, leb, below, h0, h1] at hb1 hb2 ⊢
      | pinf => simp [FP.le_def, leb] at hb1
      | fin x =>
        cases y with
        | ninf => simp [FP.le_def, leb] at hb2
        | pinf => simp [below, h0, h1]
        | fin y =>
          simp only [FP.le_def, leb, decide_eq_true_eq] at hb1 hb2
          have := h.mono (show x ≤ y by omega)
          have := h0 x; have := h1 y
          simp only [below]
          constructor <;> linarith
    · simp

example : ∃ p q, fit ival (1 / 100) [1, 1, 4, 9] = .ok p ∧
    prob ival p (.interval ⟨fin 1, fin 4, .inc, .inc⟩) = .ok q ∧ 0 ≤ q ∧ q ≤ 1 := by
  obtain ⟨p, h1, -, h2⟩ := C74_range ival_strictMono (1 / 100) [1, 1, 4, 9] none none (by simp) (by simp)
    (lo := 1) (hi := 9) (by decide) (by decide) (by decide) (by decide) (by decide)
  obtain ⟨q, h3⟩ := h2 ⟨fin 1, fin 4, .inc, .inc⟩ 2 (by simp [CS.Mem, FP.lt_def, leb])
  exact ⟨p, q, h1, h3⟩

/-- If an interval is cut in two, at a point that belongs to one of the parts, its probability is the sum of
theirs.

Partial: no part may begin with the least sample if that occurs more than once. -/
theorem C74_additive_partial {val : ℤ → ℚ} (hval : StrictMono val) (eps : ℚ) (data : List ℤ)
    (leftmost rightmost : Option ℤ) (hl : ∀ v ∈ leftmost, ∀ x ∈ data, v < x)
    (hr : ∀ v ∈ rightmost, ∀ x ∈ data, x < v) {lo hi : ℤ}
    (hlo : lo ∈ sample data leftmost rightmost) (hhi : hi ∈ sample data leftmost rightmost)
    (hlt : lo < hi) (hmin : ∀ x ∈ sample data leftmost rightmost, lo ≤ x)
    (hmax : ∀ x ∈ sample data leftmost rightmost, x ≤ hi) :
    ∃ p, fit val eps data leftmost rightmost = .ok p ∧
      ∀ (a b : FP) (c : ℤ) (l r : Br) (first : Bool),
        let I : CS := ⟨a, fin c, l, if first then .inc else .exc⟩
        let J : CS := ⟨fin c, b, if first then .exc else .inc, r⟩
        (∃ m, I.Mem (fin m)) → (∃ m, J.Mem (fin m)) →
        (a = fin lo ∧ l = .inc ∨ c = lo ∧ first = false → (sample data leftmost rightmost).count lo = 1) →
        ∃ q q', prob val p (.interval I) = .ok q ∧ prob val p (.interval J) = .ok q' ∧
          prob val p (.interval ⟨a, b, l, r⟩) = .ok (q + q') := by
  obtain ⟨p, F, hp, -, -, h⟩ := C74_fit_partial hval eps data leftmost rightmost hl hr hlo hhi hlt hmin hmax
  refine ⟨p, hp, fun a b c l r first => ?_⟩
  intro I J ⟨m, hm⟩ ⟨m', hm'⟩ hc
  have hK : (⟨a, b, l, r⟩ : CS).Mem (fin m) ∨ (⟨a, b, l, r⟩ : CS).Mem (fin m') := by
    have e1 := (mem_bounds hm').2
    have e2 := (mem_bounds hm').1
    have e3 := (mem_bounds hm).2
    obtain ⟨h1, h2⟩ := hm
    obtain ⟨h3, h4⟩ := hm'
    simp only [I, J] at *
    rcases lt_or_eq_of_le (le_trans e2 e1) with h5 | h5
    · left
      exact ⟨h1, .inl (lt_of_le_of_lt e3 h5)⟩
    · right
      refine ⟨?_, h4⟩
      rcases h1 with h1 | ⟨h1, h1'⟩
      · exact .inl (lt_of_lt_of_le h1 (le_trans e3 e2))
      · rcases lt_or_eq_of_le (le_trans e3 e2) with h6 | h6
        · exact .inl (h1 ▸ h6)
        · exact .inr ⟨h1.trans h6, h1'⟩
  obtain ⟨k, hk⟩ : ∃ k : ℤ, (⟨a, b, l, r⟩ : CS).Mem (fin k) := by
    rcases hK with hK | hK <;> exact ⟨_, hK⟩
  refine ⟨_, _, h I m hm (fun h1 h2 => hc (.inl ⟨h1, h2⟩)), h J m' hm' (fun h1 h2 => hc (.inr ?_)), ?_⟩
  · simp only [J, fin.injEq] at h1 h2
    refine ⟨h1, ?_⟩
    cases first <;> simp_all
  rw [h _ k hk (fun h1 h2 => hc (.inl ⟨h1, h2⟩))]
  simp only [probOf, I, J]
  cases first <;> simp [below]

example : ∃ p q q', fit ival (1 / 100) [1, 1, 4, 9] = .ok p ∧
    prob ival p (.interval ⟨fin 0, fin 5, .inc, .exc⟩) = .ok q ∧
    prob ival p (.interval ⟨fin 5, fin 8, .inc, .inc⟩) = .ok q' ∧
    prob ival p (.interval ⟨fin 0, fin 8, .inc, .inc⟩) = .ok (q + q') := by
  obtain ⟨p, h1, h2⟩ := C74_additive_partial ival_strictMono (1 / 100) [1, 1, 4, 9] none none (by simp) (by simp)
    (lo := 1) (hi := 9) (by decide) (by decide) (by decide) (by decide) (by decide)
  obtain ⟨q, q', h3⟩ := h2 (fin 0) (fin 8) 5 .inc .inc false ⟨2, by simp [CS.Mem, FP.lt_def, leb]⟩
    ⟨6, by simp [CS.Mem, FP.lt_def, leb]⟩ (by simp)
  exact ⟨p, q, q', h1, h3⟩

/-- A distribution of a single value gives probability 1 to the intervals that contain it, and 0 to all others. -/
theorem C74_dirac (val : ℤ → ℚ) (x : ℤ) (I : CS) (hI : I.lower ≤ I.upper) :
    (I.Mem (fin x) → prob val (jumpCdf x) (.interval I) = .ok 1) ∧
    (¬ I.Mem (fin x) → prob val (jumpCdf x) (.interval I) = .ok 0) := by
  have hd : gtZero none (impulse [((⟨ninf, fin x, .exc, .exc⟩ : CS), XQ.fin 0),
      ((⟨fin x, pinf, .inc, .exc⟩ : CS), XQ.fin 0)]) = [⟨fin x, fin (x + 1), .inc, .exc⟩] := by
    simp [impulse, gtZero, XQ.le, FP.up]
  have hp : pdf (jumpCdf x) = .ok (impulse [((⟨ninf, fin x, .exc, .exc⟩ : CS), XQ.fin 0),
      ((⟨fin x, pinf, .inc, .exc⟩ : CS), XQ.fin 0)]) := rfl
  have hat : ∀ n, cdfAt val (jumpCdf x) (fin n) = .ok (if n < x then 0 else 1) := by
    intro n
    rw [show jumpCdf x = tile ninf (.const 0) [(x, .const 1)] pinf from rfl, cdfAt,
      tile_at (by simp [FP.le_def, leb]) (by simp [FP.lt_def, leb])]
    simp only [tileAt]
    split <;> rfl
  rw [prob, pInterval, hp]
  simp only [bind, Except.bind, hd, RS.intersects, List.any_cons, List.any_nil, Bool.or_false, List.all_cons,
    List.all_nil, Bool.and_true]
  obtain ⟨a, b, l, r⟩ := I
  simp only [CS.Mem, CS.intersects, CS.containsInterval, CS.isempty, CS.isclosed, CS.itype, CS.lowermost, CS.uppermost, massTo, massFrom]
  cases a <;> cases b <;> cases l <;> cases r <;>
    simp [FP.lt_def, FP.le_def, leb, FP.up, FP.dn, Br.code, hat] at hI ⊢ <;> clear hd hp hat <;> grind

example : prob ival (jumpCdf 4) (.interval ⟨fin 0, fin 4, .exc, .inc⟩) = .ok 1 ∧
    prob ival (jumpCdf 4) (.interval ⟨fin 4, fin 9, .exc, .inc⟩) = .ok 0 :=
  ⟨(C74_dirac ival 4 _ (by decide)).1 (by simp [CS.Mem, FP.lt_def, leb]),
    (C74_dirac ival 4 _ (by decide)).2 (by simp [CS.Mem, FP.lt_def, leb])⟩

/-- If the least sample is duplicated, its mass is lost for every interval that begins with it: the interval from
the least to the greatest sample, which has probability 1, gets 2/3, and the least sample itself gets 0. -/
theorem C74_violated_duplicated_minimum :
    ∃ p, fit ival (1 / 100) [1, 1, 4, 9] = .ok p ∧
      prob ival p (.interval ⟨fin 0, fin 9, .inc, .inc⟩) = .ok 1 ∧
      prob ival p (.interval ⟨fin 1, fin 9, .inc, .inc⟩) = .ok (2 / 3) ∧
      prob ival p (.interval ⟨fin 0, fin 1, .inc, .exc⟩) = .ok 0 ∧
      prob ival p (.interval ⟨fin 0, fin 1, .inc, .inc⟩) = .ok (1 / 3) ∧
      prob ival p (.number 1) = .ok 0 := by
  refine ⟨[(⟨ninf, fin 1, .exc, .exc⟩, .const 0), (co 1 4, .lin (1 / 9) (2 / 9)),
    (co 4 10, .lin (1 / 15) (2 / 5)), (⟨fin 10, pinf, .inc, .exc⟩, .const 1)], ?_, ?_, ?_, ?_, ?_, ?_⟩ <;>
    decide +kernel

/-- In a merge of two distributions of single values nothing has positive density, and every interval, even the
real line, gets probability 0. -/
theorem C74_violated_merged_values :
    ∃ p, merge ival Rat.floor [jumpCdf 2, jumpCdf 7] none = .ok p ∧
      p.eval ival 1 = .ok (some 0) ∧ p.eval ival 2 = .ok (some (1 / 2)) ∧ p.eval ival 7 = .ok (some 1) ∧
      prob ival p (.interval ⟨ninf, pinf, .exc, .exc⟩) = .ok 0 ∧
      prob ival p (.interval ⟨fin 0, fin 5, .inc, .inc⟩) = .ok 0 := by
  refine ⟨[(⟨ninf, fin 2, .exc, .exc⟩, .const 0), (co 2 7, .const (1 / 2)),
    (⟨fin 7, pinf, .inc, .exc⟩, .const 1)], ?_, ?_, ?_, ?_, ?_, ?_⟩ <;>
    decide +kernel

/-- Overlapping intervals of a set are counted twice. -/
theorem C74_violated_overlap :
    ∃ p, fit ival (1 / 100) [0, 10] = .ok p ∧
      prob ival p (.set [⟨fin 0, fin 8, .inc, .inc⟩, ⟨fin 2, fin 10, .inc, .inc⟩]) = .ok (8 / 5) := by
  refine ⟨[(⟨ninf, fin 0, .exc, .exc⟩, .const 0), (co 0 11, .lin (1 / 10) 0),
    (⟨fin 11, pinf, .inc, .exc⟩, .const 1)], ?_, ?_⟩ <;> decide +kernel

end Verif.Num
