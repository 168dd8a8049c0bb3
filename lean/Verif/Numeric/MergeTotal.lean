import Verif.Numeric.MergeLemmas7
import Verif.Numeric.Props9

/-! # Merging cdfs always gives a function that can be stored -/

namespace Verif.Num

open Iv Iv.FP Fun

theorem setUpper_append (u : FP) (i : CS) (f : Fn) : ∀ init : PF,
    setUpper u (init ++ [(i, f)]) = init ++ [({ i with upper := u }, f)]
  | [] => rfl
  | [s] => rfl
  | s :: t :: r => by
    have := setUpper_append u i f (t :: r)
    simp only [List.cons_append] at this ⊢
    rw [setUpper, this]
    simp

theorem fn_cases_coeffs (m c : ℚ) : (∃ v, newFn m c = .const v) ∨ ∃ m' c', newFn m c = .lin m' c' := by
  unfold newFn
  split_ifs
  · exact .inr ⟨_, _, rfl⟩
  · exact .inl ⟨_, rfl⟩

/-- The pieces found so far can be stored, and the last one begins before the remaining positions. -/
def Acc (acc : PF) (B : ℤ → Prop) : Prop :=
  ∃ init i f, acc = init ++ [(i, f)] ∧ (∀ s ∈ acc, Storable s) ∧ ∀ k, B k → i.lower ≤ fin k

theorem extend_acc {acc : PF} {B B' : ℤ → Prop} (h : Acc acc B) {k : ℤ} (hk : B k) (hB : ∀ j, B' j → k ≤ j) (m c : ℚ) :
    ∃ acc', extend acc k m c = .ok acc' ∧ Acc acc' B' := by
  obtain ⟨init, i, f, rfl, hs, hb⟩ := h
  have hl : lastFn (init ++ [(i, f)]) = .ok f := by simp [lastFn]
  have hi := hs (i, f) (by simp)
  have hinit : ∀ s ∈ init, Storable s := fun s hs' => hs s (by simp [hs'])
  have hlow : ∀ j, B' j → i.lower ≤ fin j := fun j hj => by
    have h1 := hb k hk
    have h2 := hB j hj
    have : (fin k : FP) ≤ fin j := by simpa [FP.le_def, leb] using h2
    exact fp_le_trans h1 this
  unfold extend
  rw [hl]
  simp only [bind, Except.bind]
  by_cases hc : (c ≠ 0 ∨ m ≠ 0) ∧ (m ≠ (coeffs f).1 ∨ c ≠ (coeffs f).2)
  · rw [if_pos hc]
    refine ⟨_, rfl, init ++ [({ i with upper := fin k }, f)], ⟨fin k, pinf, .inc, .exc⟩, newFn m c, ?_, ?_, ?_⟩
    · rw [setUpper_append]
    · intro s hs'
      rw [setUpper_append] at hs'
      simp only [List.mem_append, List.mem_singleton] at hs'
      rcases hs' with (hs' | rfl) | rfl
      · exact hinit s hs'
      · exact ⟨hb k hk, hi.2⟩
      · exact ⟨by simp [FP.le_def, leb], fn_cases_coeffs m c⟩
    · intro j hj
      simpa [FP.le_def, leb] using hB j hj
  · rw [if_neg hc]
    refine ⟨_, rfl, init, { i with upper := fin k }, f, setUpper_append _ _ _ _, ?_, hlow⟩
    intro s hs'
    rw [setUpper_append] at hs'
    simp only [List.mem_append, List.mem_singleton] at hs'
    rcases hs' with hs' | rfl
    · exact hinit s hs'
    · exact ⟨hb k hk, hi.2⟩

theorem sweep_acc (val : ℤ → ℚ) : ∀ (fuel : ℕ) (lo up : List Entry) (m c : ℚ) (acc : PF),
    lo.length + up.length ≤ fuel → (∀ e ∈ lo, e.Good) → (∀ e ∈ up, e.Slope) → Sorted lo → Sorted up →
    Acc acc (fun k => ∃ e ∈ lo ++ up, e.at' = k) →
    ∃ acc', sweep val fuel lo up m c acc = .ok acc' ∧ Acc acc' (fun _ => False)
  | fuel, [], [], m, c, acc, _, _, _, _, _, ha => by
    refine ⟨acc, by cases fuel <;> simp [sweep], ?_⟩
    obtain ⟨init, i, f, h1, h2, -⟩ := ha
    exact ⟨init, i, f, h1, h2, fun _ h => h.elim⟩
  | 0, e :: lo, up, m, c, acc, hlen, _, _, _, _, _ => by simp at hlen
  | 0, [], e :: up, m, c, acc, hlen, _, _, _, _, _ => by simp at hlen
  | fuel + 1, lo, up, m, c, acc, hlen, hlo, hup, hsl, hsu, ha => by
    by_cases hne : lo ++ up = []
    · obtain ⟨rfl, rfl⟩ := List.append_eq_nil_iff.1 hne
      refine ⟨acc, by simp [sweep], ?_⟩
      obtain ⟨init, i, f, h1, h2, -⟩ := ha
      exact ⟨init, i, f, h1, h2, fun _ h => h.elim⟩
    · obtain ⟨k, lo1, lo2, up1, up2, p, m1, h1, h2, h3, h4, h5, h6, h7, h8, h9⟩ := round (m := m) hlo hup hsl hsu hne
      have hk : ∃ e ∈ lo ++ up, e.at' = k := by
        obtain ⟨e, he⟩ := List.exists_mem_of_ne_nil _ h3
        rcases List.mem_append.1 he with he | he
        · exact ⟨e, by simp [h1, he], h4 e he⟩
        · exact ⟨e, by simp [h2, he], h6 e he⟩
      have hlen' : lo2.length + up2.length ≤ fuel := by
        have e1 := congrArg List.length h1
        have e2 := congrArg List.length h2
        have e3 : 0 < (lo1 ++ up1).length := List.length_pos_iff.2 h3
        simp only [List.length_append] at e1 e2 e3
        omega
      have hlt : ∀ j, (∃ e ∈ lo2 ++ up2, e.at' = j) → k ≤ j := by
        rintro j ⟨e, he, rfl⟩
        rcases List.mem_append.1 he with he | he
        · exact (h5 e he).le
        · exact (h7 e he).le
      generalize hm' : (if |m + (lo1.map Entry.slope).sum - (up1.map Entry.slope).sum| > tol then
        m + (lo1.map Entry.slope).sum - (up1.map Entry.slope).sum else 0) = m'
      obtain ⟨acc1, h10, h11⟩ := extend_acc ha hk hlt m'
        (m * val k + c - m' * val k + (lo1.map Entry.jump).sum)
      obtain ⟨acc2, h12, h13⟩ := sweep_acc val fuel lo2 up2 m' (m * val k + c - m' * val k + (lo1.map Entry.jump).sum) acc1 hlen'
        (fun e he => hlo e (by simp [h1, he])) (fun e he => hup e (by simp [h2, he]))
        (by rw [h1] at hsl; exact (List.pairwise_append.1 hsl).2.1) (by rw [h2] at hsu; exact (List.pairwise_append.1 hsu).2.1) h11
      refine ⟨acc2, ?_, h13⟩
      have hstep : sweep val (fuel + 1) lo up m c acc = (do
          let acc ← extend acc k m' (m * val k + c - m' * val k + (lo1.map Entry.jump).sum)
          sweep val fuel lo2 up2 m' (m * val k + c - m' * val k + (lo1.map Entry.jump).sum) acc) := by
        rw [sweep]
        · rw [h8]
          simp only [bind, Except.bind]
          rw [h9]
          simp only [hm']
        · rintro rfl rfl
          exact hne rfl
      rw [hstep, h10]
      exact h12

theorem dropTiny_prefix : ∀ (l : PF), l ≠ [] → dropTiny l ≠ [] ∧ ∀ s ∈ dropTiny l, s ∈ l
  | [], h => absurd rfl h
  | [s], _ => ⟨by simp [dropTiny], by simp [dropTiny]⟩
  | s :: t :: r, _ => by
    unfold dropTiny
    split_ifs
    · obtain ⟨h1, h2⟩ := dropTiny_prefix (t :: r) (by simp)
      exact ⟨h1, fun x hx => List.mem_cons_of_mem _ (h2 x hx)⟩
    · exact ⟨by simp, fun x hx => hx⟩

theorem appendAt_storable {p : PF} {i : CS} {f : Fn} (hp : p.getLast? = some (i, f)) (hs : ∀ s ∈ p, Storable s) (v : ℚ) (del : Bool) :
    ∃ q, appendAt p (.const v) i.lower del = .ok q ∧ ∀ s ∈ q, Storable s := by
  unfold appendAt
  rw [hp]
  simp only
  refine ⟨_, rfl, fun s hs' => ?_⟩
  have hmem := hs (i, f) (List.mem_of_getLast? hp)
  rw [List.mem_append, List.mem_append, List.mem_singleton] at hs'
  rcases hs' with (hs' | hs') | rfl
  · exact hs s (List.mem_of_mem_dropLast hs')
  · split_ifs at hs' with hd
    · cases hs'
    · rw [List.mem_singleton] at hs'
      subst hs'
      exact ⟨le_refl _, hmem.2⟩
  · refine ⟨?_, .inl ⟨v, rfl⟩⟩
    show i.lower ≤ pinf
    cases i.lower <;> simp [FP.le_def, leb]

theorem ensureRight_storable {rnd : ℚ → ℤ} {p : PF} {i : CS} {f : Fn} (hp : p.getLast? = some (i, f)) (hs : ∀ s ∈ p, Storable s)
    (v : ℚ) : ∃ q, ensureRight rnd p v i.lower = .ok q ∧ ∀ s ∈ q, Storable s := by
  unfold ensureRight
  rw [hp]
  simp only
  rcases (hs (i, f) (List.mem_of_getLast? hp)).2 with ⟨c, hf⟩ | ⟨m, c, hf⟩
  · simp only at hf
    subst hf
    simp only
    split_ifs
    · exact ⟨p, rfl, hs⟩
    · exact appendAt_storable hp hs v true
  · simp only at hf
    subst hf
    simp only
    split_ifs with h1 h2 h3
    · exact ⟨p, rfl, hs⟩
    · exact appendAt_storable hp hs v true
    · exact absurd h3.2 (not_le.2 h3.1)
    · exact appendAt_storable hp hs v true

/-- Merging never fails, if the weights are right, and the merged function can be stored. -/
theorem merge_total {val : ℤ → ℚ} (rnd : ℚ → ℤ) {ds : List PF} {ws : List ℚ} (hm : ∀ d ∈ ds, Mergeable d)
    (hw : ∀ w ∈ ws, 0 ≤ w) (hsum : ws.sum = 1) :
    ∃ p, merge val rnd ds (some (ws.map some)) = .ok p ∧ ∀ s ∈ p, Storable s := by
  have hdw : ∀ d ∈ ds.zip ws, Mergeable d.1 ∧ 0 ≤ d.2 := fun d hd =>
    ⟨hm _ (List.of_mem_zip hd).1, hw _ (List.of_mem_zip hd).2⟩
  have hsl : ∀ s ∈ slopes (ds.zip ws), (loE s).Slope ∧ (upE s).Slope := by
    intro s hs
    obtain ⟨d, hd, hw', h1, h2, h3⟩ := mem_slopes.1 hs
    rcases (hdw d hd).1.pieces _ h2 with ⟨v, hv⟩ | ⟨m, c, a, b, e1, e2, e3, e4, e5⟩
    · exact absurd hv (h3 v)
    · exact ⟨⟨⟨a, e3⟩, by rw [loE, h1]; exact hw', m, c, by simp only [loE]; exact congrArg some e1, e2⟩,
        ⟨b, e4⟩, by rw [upE, h1]; exact hw', m, c, by simp only [upE]; exact congrArg some e1, e2⟩
  have hj := jumps_inv hdw (js := []) (by simp)
  rw [← jumpsOf_eq] at hj
  have hlow : ∀ e ∈ (slopes (ds.zip ws)).map loE ++ ((jumpsOf (ds.zip ws)).filter (fun j => j.2 > 0)).map juE, e.Good := by
    intro e he
    rcases List.mem_append.1 he with he | he
    · obtain ⟨s, hs, rfl⟩ := List.mem_map.1 he
      exact .inl (hsl s hs).1
    · obtain ⟨j, hj', rfl⟩ := List.mem_map.1 he
      rw [List.mem_filter, decide_eq_true_eq] at hj'
      exact .inr ⟨(hj j hj'.1).1, hj'.2, rfl⟩
  have hupp : ∀ e ∈ (slopes (ds.zip ws)).map upE, e.Slope := by
    intro e he
    obtain ⟨s, hs, rfl⟩ := List.mem_map.1 he
    exact (hsl s hs).2
  have g1 : ∀ e ∈ lowerOf (ds.zip ws), e.Good := by
    intro e he
    rw [lowerOf_eq, (sortEntries_perm _).mem_iff] at he
    exact hlow e he
  have g2 : ∀ e ∈ upperOf (ds.zip ws), e.Slope := by
    intro e he
    rw [upperOf_eq, (sortEntries_perm _).mem_iff] at he
    exact hupp e he
  have g3 : Sorted (lowerOf (ds.zip ws)) := by rw [lowerOf_eq]; exact sortEntries_sorted hlow
  have g4 : Sorted (upperOf (ds.zip ws)) := by rw [upperOf_eq]; exact sortEntries_sorted (fun e he => .inl (hupp e he))
  obtain ⟨acc, h1, init, i, f, h2, h3, -⟩ := sweep_acc val ((lowerOf (ds.zip ws)).length + (upperOf (ds.zip ws)).length) _ _ 0 0
    [(CS.allnumbers, .const 0)] le_rfl g1 g2 g3 g4 ⟨[], CS.allnumbers, .const 0, rfl, by
      intro s hs
      rw [List.mem_singleton] at hs
      subst hs
      exact ⟨by decide, .inl ⟨0, rfl⟩⟩, fun k _ => by simp [CS.allnumbers, FP.le_def, leb]⟩
  obtain ⟨h4, h5⟩ := dropTiny_prefix acc.reverse (by simp [h2])
  have h6 : ∀ s ∈ (dropTiny acc.reverse).reverse, Storable s := fun s hs =>
    h3 s (by simpa using h5 s (by simpa using hs))
  obtain ⟨⟨i', f'⟩, h7⟩ : ∃ s, (dropTiny acc.reverse).reverse.getLast? = some s := by
    cases h : (dropTiny acc.reverse).reverse.getLast? with
    | none => simp at h; exact absurd h h4
    | some s => exact ⟨s, rfl⟩
  obtain ⟨q, h8, h9⟩ := ensureRight_storable (rnd := rnd) h7 h6 1
  refine ⟨q, ?_, h9⟩
  have hws : (ws.map some).mapM id = some ws := by
    rw [mapM_some]
  unfold merge
  simp only [weightsOf, bind, Except.bind]
  rw [hws]
  simp only
  rw [if_neg (by rw [hsum]; norm_num [tol])]
  unfold mergeWeighted
  simp only [bind, Except.bind]
  rw [h1]
  simp only
  rw [h7]
  exact h8

/-- A function with storable pieces is read back. -/
theorem reload_storable {p : PF} (h : ∀ s ∈ p, Storable s) : reload p = .ok p := by
  obtain ⟨d, h1, h2⟩ := C78_function_roundtrip p h
  simp only [reload, bind, Except.bind, h1, h2]

/-- Fitted cdfs can be merged and stored. -/
theorem fit_mergeable {val : ℤ → ℚ} (hval : StrictMono val) {eps : ℚ} {data s : List ℤ} {l r : Option ℤ}
    (hs : loadBuffer data l r = .ok s) (hne : s ≠ []) :
    ∃ p, fit val eps data l r = .ok p ∧ Mergeable p ∧ ∀ t ∈ p, Storable t := by
  obtain ⟨p, h1, h2⟩ := fit_storable hval (eps := eps) hs hne
  refine ⟨p, h1, ?_, h2⟩
  obtain ⟨lo, hlo, hmin⟩ := exists_least hne
  obtain ⟨hi, hhi, hmax⟩ := exists_greatest hne
  rcases (hmin hi hhi).lt_or_eq with hlt | rfl
  · obtain ⟨pts, p', F, hp, hp', -, -, hrise, -, -, hlast, hpts⟩ := fit_spec hval (eps := eps) hs hlo hhi hlt hmin hmax
    rw [h1] at hp
    injection hp with hp
    rw [hp, hp']
    refine mergeable_tile (full_knots hrise hlast) ?_ ⟨1, lastOf_append _ _ _ _⟩
    intro s hs
    rcases List.mem_append.1 hs with hs | hs
    · obtain ⟨i, a, b, h1, h2, rfl⟩ := segs_get hs
      have := rising_get hrise h1 h2
      exact lineOf_pl hval this.1 this.2
    · simp only [List.mem_singleton] at hs; subst hs; trivial
  · rw [fit_single (eps := eps) hs hlo (fun y hy => le_antisymm (hmax y hy) (hmin y hy))] at h1
    injection h1 with h1
    have h3 : p = tile ninf (.const 0) [(lo, .const 1)] pinf := h1.symm
    rw [h3]
    exact mergeable_tile (by simp [Knots]) (by simp [IsPl]) ⟨1, rfl⟩

end Verif.Num
