import Verif.Intervals.SampleSpec
import Verif.Intervals.Lemmas8
import Verif.ListAux
import Mathlib.Tactic.Linarith
import Mathlib.Tactic.Ring
import Mathlib.Algebra.Order.BigOperators.Group.List

/-! # Lemmas about sampling -/

namespace Verif.Iv

open FP

theorem clip_low {F : Floats} {s : CS} (hr : s.Reg) {n : ℤ} (h1 : F.fmin ≤ n) (h2 : n ≤ F.fmax) (h : s.Mem (fin n)) :
    F.fmin ≤ clip F (if s.left = .inc then s.lower else s.lower.up) ∧
    clip F (if s.left = .inc then s.lower else s.lower.up) ≤ n ∧
    s.Mem (fin (clip F (if s.left = .inc then s.lower else s.lower.up))) := by
  obtain ⟨a, b, l, r⟩ := s
  cases a <;> cases b <;> cases l <;> cases r <;>
    simp_all [CS.Mem, CS.Reg, FP.lt_def, leb, FP.up, clip] <;> (try split_ifs) <;> omega

theorem clip_high {F : Floats} {s : CS} (hr : s.Reg) {n : ℤ} (h1 : F.fmin ≤ n) (h2 : n ≤ F.fmax) (h : s.Mem (fin n)) :
    clip F (if s.right = .inc then s.upper else s.upper.dn) ≤ F.fmax ∧
    n ≤ clip F (if s.right = .inc then s.upper else s.upper.dn) ∧
    s.Mem (fin (clip F (if s.right = .inc then s.upper else s.upper.dn))) := by
  obtain ⟨a, b, l, r⟩ := s
  cases a <;> cases b <;> cases l <;> cases r <;>
    simp_all [CS.Mem, CS.Reg, FP.lt_def, leb, FP.dn, clip] <;> (try split_ifs) <;> omega

theorem mem_convex {s : CS} {a b x : ℤ} (ha : s.Mem (fin a)) (hb : s.Mem (fin b)) (h1 : a ≤ x) (h2 : x ≤ b) :
    s.Mem (fin x) := by
  obtain ⟨lo, up, l, r⟩ := s
  cases lo <;> cases up <;> cases l <;> cases r <;> simp_all [CS.Mem, FP.lt_def, leb] <;> omega

/-- Sampling from one interval. -/
theorem sample_spec {F : Floats} {s : CS} (hw : s.WF) (hr : s.Reg) (hf : HasFloat F s) (hs : Small F s)
    {draws : List (ℤ → ℤ → ℤ)} (hd : ∀ d ∈ draws, Between d) :
    ∃ xs, s.sample F draws = .ok xs ∧ xs.length = draws.length ∧ ∀ x ∈ xs, s.Mem x := by
  obtain ⟨n, h1, h2, h3⟩ := hf
  have he : s.isempty = false := by
    cases h : s.isempty with
    | false => rfl
    | true => exact absurd ⟨_, h3⟩ ((CS.isempty_iff s hw).1 h)
  obtain ⟨l1, l2, l3⟩ := clip_low hr h1 h2 h3
  obtain ⟨u1, u2, u3⟩ := clip_high hr h1 h2 h3
  have hlim := hs _ _ l1 u1 l3 u3
  refine ⟨_, by simp only [CS.sample, he, Bool.false_eq_true, if_false]; rw [if_neg (not_le.2 hlim)], by simp, ?_⟩
  intro x hx
  obtain ⟨d, hdm, rfl⟩ := List.mem_map.1 hx
  obtain ⟨b1, b2⟩ := hd d hdm _ _ (l2.trans u2)
  exact mem_convex l3 u3 b1 b2

theorem width_len {F : Floats} (hv : StrictMono F.val) {s : CS} (hw : s.WF) (hb : Bounded s) :
    s.width F = some (len F s) ∧ 0 ≤ len F s := by
  obtain ⟨a, b, ha, hb⟩ := hb
  have hab : a ≤ b := by
    have := hw
    simp only [CS.WF, ha, hb, FP.le_def, leb, decide_eq_true_eq] at this
    exact this
  have h0 : 0 ≤ F.val b - F.val a := sub_nonneg.2 (hv.monotone hab)
  simp only [CS.width, len, ha, hb]
  exact ⟨by rw [abs_of_nonneg h0], h0⟩

theorem width_none {F : Floats} {s : CS} (hb : ¬ Bounded s) : s.width F = none := by
  obtain ⟨a, b, l, r⟩ := s
  cases a <;> cases b <;> simp_all [CS.width, Bounded]

theorem foldl_none (l : List (Option ℚ)) : l.foldl addInf none = none := by
  induction l with
  | nil => rfl
  | cons a l ih => simpa [addInf] using ih

theorem foldl_some (l : List ℚ) : ∀ a, (l.map some).foldl addInf (some a) = some (a + l.sum) := by
  induction l with
  | nil => simp
  | cons b l ih => intro a; simp only [List.map_cons, List.foldl_cons, addInf, ih, List.sum_cons, add_assoc]

theorem foldl_inf {l : List (Option ℚ)} (h : none ∈ l) : ∀ a, l.foldl addInf a = none := by
  induction l with
  | nil => simp at h
  | cons b l ih =>
    intro a
    rcases List.mem_cons.1 h with h | h
    · subst h
      cases a <;> simp [addInf, foldl_none]
    · exact ih h _

theorem cumsum_length (l : List (Option ℚ)) : ∀ a, (cumsum a l).length = l.length := by
  induction l with
  | nil => simp [cumsum]
  | cons b l ih => intro a; simp [cumsum, ih]

theorem cumsum_get (l : List ℚ) : ∀ (a : ℚ) (j : ℕ), j < l.length →
    (cumsum (some a) (l.map some))[j]? = some (some (a + (l.take (j + 1)).sum)) := by
  induction l with
  | nil => intro a j h; simp at h
  | cons b l ih =>
    intro a j h
    cases j with
    | zero => simp [cumsum, addInf]
    | succ j =>
      simp only [List.map_cons, cumsum, addInf, List.getElem?_cons_succ]
      rw [ih _ _ (by simpa using h)]
      simp [add_assoc]

/-- The last bound is infinite if a weight is. -/
theorem cumsum_inf {l : List (Option ℚ)} (h : none ∈ l) : ∀ a, none ∈ cumsum a l := by
  induction l with
  | nil => simp at h
  | cons b l ih =>
    intro a
    rcases List.mem_cons.1 h with h | h
    · subst h
      cases a <;> simp [cumsum, addInf]
    · simp only [cumsum, List.mem_cons]
      exact .inr (ih h _)

/-- Some interval is chosen. -/
theorem findIdx_some {l : List (Option ℚ)} {u : ℚ} (h : ∃ b ∈ l, leInf u b = true) :
    ∃ j, l.findIdx? (leInf u) = some j ∧ j < l.length := by
  cases hf : l.findIdx? (leInf u) with
  | none =>
    rw [List.findIdx?_eq_none_iff] at hf
    obtain ⟨b, hb, hu⟩ := h
    exact absurd hu (by simp [hf b hb])
  | some j =>
    exact ⟨j, rfl, (List.findIdx?_eq_some_iff_getElem.1 hf).1⟩

theorem sum_take_mono {l : List ℚ} (h : ∀ x ∈ l, 0 ≤ x) {i j : ℕ} (hij : i ≤ j) : (l.take i).sum ≤ (l.take j).sum := by
  induction l generalizing i j with
  | nil => simp
  | cons a l ih =>
    cases i with
    | zero =>
      simp only [List.take_zero, List.sum_nil]
      exact List.sum_nonneg (fun x hx => h x (List.mem_of_mem_take hx))
    | succ i =>
      cases j with
      | zero => omega
      | succ j =>
        simp only [List.take_succ_cons, List.sum_cons]
        have := ih (fun x hx => h x (by simp [hx])) (show i ≤ j by omega)
        linarith

/-- The chosen interval is the one in whose part of the total length the number lies. -/
theorem findIdx_between {l : List ℚ} (h : ∀ x ∈ l, 0 ≤ x) {u : ℚ} {j : ℕ} (hj : j < l.length)
    (h1 : (l.take j).sum < u) (h2 : u ≤ (l.take (j + 1)).sum) :
    (cumsum (some 0) (l.map some)).findIdx? (leInf u) = some j := by
  rw [List.findIdx?_eq_some_iff_getElem]
  have hg : ∀ i (hi : i < l.length), (cumsum (some 0) (l.map some))[i]'(by rw [cumsum_length]; simpa using hi) =
      some (l.take (i + 1)).sum := by
    intro i hi
    have := cumsum_get l 0 i hi
    rw [List.getElem?_eq_some_iff] at this
    obtain ⟨_, e⟩ := this
    rw [e, zero_add]
  refine ⟨by rw [cumsum_length]; simpa using hj, ?_, ?_⟩
  · rw [hg j hj]
    simpa [leInf] using h2
  · intro i hi
    rw [hg i (by omega)]
    have := sum_take_mono h (show i + 1 ≤ j by omega)
    simp only [leInf, decide_eq_true_eq, not_le]
    linarith

theorem size_ne {s : CS} (h : s.isempty = false) : s.size ≠ some 0 := by
  unfold CS.size
  simp only [h, Bool.false_eq_true, if_false]
  split_ifs <;> simp

/-- The weights of intervals none of which is empty. -/
theorem weights_eq {F : Floats} {l : List CS} (he : ∀ s ∈ l, s.isempty = false) :
    RS.weights F l = if (l.map (CS.width F)).foldl addInf (some 0) = some 0 then l.map (fun _ => some 1)
      else l.map (CS.width F) := by
  have hf : l.filter (fun s => decide (s.size ≠ some 0)) = l := by
    rw [List.filter_eq_self]
    intro s hs
    simpa using size_ne (he s hs)
  simp only [RS.weights, hf, List.map_map]
  rfl

theorem weights_finite {F : Floats} (hv : StrictMono F.val) {l : List CS} (hw : ∀ s ∈ l, s.WF)
    (he : ∀ s ∈ l, s.isempty = false) (hb : ∀ s ∈ l, Bounded s) :
    RS.weights F l = (if total F l = 0 then l.map (fun _ => (1 : ℚ)) else l.map (len F)).map some := by
  have e : l.map (CS.width F) = (l.map (len F)).map some := by
    rw [List.map_map]
    exact List.map_congr_left (fun s hs => (width_len hv (hw s hs) (hb s hs)).1)
  rw [weights_eq he, e, foldl_some, zero_add]
  simp only [Option.some.injEq]
  change (if total F l = 0 then _ else _) = _
  split_ifs <;> simp

theorem sum_ones (l : List CS) : (l.map (fun _ => (1 : ℚ))).sum = l.length := by
  induction l with
  | nil => simp
  | cons a l ih => simp only [List.map_cons, List.sum_cons, ih, List.length_cons]; push_cast; ring

/-- Some interval is chosen for every number that can be drawn. -/
theorem chosen {F : Floats} (hv : StrictMono F.val) {l : List CS} (hne : l ≠ []) (hw : ∀ s ∈ l, s.WF)
    (he : ∀ s ∈ l, s.isempty = false) {u : ℚ} (hu : Drawn F l u) :
    ∃ j, (cumsum (some 0) (RS.weights F l)).findIdx? (leInf u) = some j ∧ j < l.length := by
  have hlen : (cumsum (some 0) (RS.weights F l)).length = l.length := by
    rw [cumsum_length, weights_eq he]
    split_ifs <;> simp
  rw [← hlen]
  apply findIdx_some
  have hpos : 0 < l.length := List.length_pos_iff.2 hne
  by_cases hb : ∀ s ∈ l, Bounded s
  · have hu2 := hu.2 hb
    rw [weights_finite hv hw he hb]
    set w : List ℚ := if total F l = 0 then l.map (fun _ => (1 : ℚ)) else l.map (len F) with hwd
    have hwl : w.length = l.length := by rw [hwd]; split_ifs <;> simp
    have hsum : u ≤ w.sum := by
      rw [hwd]
      split_ifs at hu2 ⊢ with h
      · rw [sum_ones]; exact hu2
      · exact hu2
    have hg := cumsum_get w 0 (l.length - 1) (by omega)
    rw [show l.length - 1 + 1 = w.length by omega, List.take_length, zero_add] at hg
    exact ⟨_, List.mem_of_getElem? hg, by simpa [leInf] using hsum⟩
  · push Not at hb
    obtain ⟨s, hs, hnb⟩ := hb
    have hin : none ∈ l.map (CS.width F) := List.mem_map.2 ⟨s, hs, width_none hnb⟩
    rw [weights_eq he, if_neg (by rw [foldl_inf hin]; simp)]
    exact ⟨none, cumsum_inf hin _, rfl⟩

end Verif.Iv
