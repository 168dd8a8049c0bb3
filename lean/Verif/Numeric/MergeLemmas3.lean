import Verif.Numeric.MergeLemmas2
import Verif.Numeric.MergeSpec
import Mathlib.Algebra.BigOperators.Group.List.Lemmas

/-! # Merging cdfs: the entries -/

namespace Verif.Num

open Iv Iv.FP Fun

/-- An increasing piece with its weight. -/
def IsPiece (s : CS × Fn × ℚ) : Prop :=
  ∃ m c a b, s.2.1 = .lin m c ∧ 0 < m ∧ s.1.lower = fin a ∧ s.1.upper = fin b ∧ a < b ∧ 0 < s.2.2 ∧
    tol < s.2.2 * m

def loE (s : CS × Fn × ℚ) : Entry := ⟨s.1.lower, some s.2.1, s.2.2⟩
def upE (s : CS × Fn × ℚ) : Entry := ⟨s.1.upper, some s.2.1, s.2.2⟩
def juE (j : FP × ℚ) : Entry := ⟨j.1, none, j.2⟩

theorem lowerOf_eq (dw : List (PF × ℚ)) : lowerOf dw =
    sortEntries ((slopes dw).map loE ++ ((jumpsOf dw).filter (fun j => j.2 > 0)).map juE) := rfl

theorem upperOf_eq (dw : List (PF × ℚ)) : upperOf dw = sortEntries ((slopes dw).map upE) := rfl

theorem sortEntries_perm (l : List Entry) : (sortEntries l).Perm l := List.perm_insertionSort _ _

theorem fp_le_total (a b : FP) : a ≤ b ∨ b ≤ a := by
  cases a <;> cases b <;> simp [FP.le_def, leb] <;> omega

theorem fp_le_trans {a b c : FP} (h1 : a ≤ b) (h2 : b ≤ c) : a ≤ c := by
  cases a <;> cases b <;> cases c <;> simp_all [FP.le_def, leb] <;> omega

theorem sortEntries_sorted {l : List Entry} (h : ∀ e ∈ l, e.Good) : Sorted (sortEntries l) := by
  have : Std.Total (fun a b : Entry => a.pos ≤ b.pos) := ⟨fun a b => fp_le_total _ _⟩
  have : IsTrans Entry (fun a b : Entry => a.pos ≤ b.pos) := ⟨fun _ _ _ h1 h2 => fp_le_trans h1 h2⟩
  have hs := List.pairwise_insertionSort (fun a b : Entry => a.pos ≤ b.pos) l
  have hm : ∀ e ∈ sortEntries l, e.Good := fun e he => h e ((sortEntries_perm l).mem_iff.1 he)
  refine List.Pairwise.imp_of_mem ?_ hs
  intro a b ha hb hab
  rw [(hm a ha).pos, (hm b hb).pos] at hab
  simpa [FP.le_def, leb] using hab

theorem slopes_cons (d : PF × ℚ) (dw : List (PF × ℚ)) : slopes (d :: dw) = slopes [d] ++ slopes dw := by
  simp [slopes]

theorem mem_slopes {dw : List (PF × ℚ)} {s : CS × Fn × ℚ} : s ∈ slopes dw ↔
    ∃ d ∈ dw, 0 < d.2 ∧ s.2.2 = d.2 ∧ (s.1, s.2.1) ∈ d.1 ∧ ∀ v, s.2.1 ≠ .const v := by
  simp only [slopes, List.mem_flatMap, List.mem_filterMap]
  constructor
  · rintro ⟨d, hd, t, ht, h⟩
    refine ⟨d, hd, ?_⟩
    obtain ⟨i, f⟩ := t
    cases f <;> simp at h <;> obtain ⟨h1, rfl⟩ := h <;> simp [h1, ht]
  · rintro ⟨d, hd, hw, h1, h2, h3⟩
    refine ⟨d, hd, _, h2, ?_⟩
    obtain ⟨i, f, w⟩ := s
    simp only at h1 h2 h3 ⊢
    cases f <;> simp_all

theorem slopes_piece {dw : List (PF × ℚ)} (hm : ∀ d ∈ dw, Mergeable d.1)
    (hsl : ∀ d ∈ dw, 0 < d.2 → ∀ s ∈ d.1, ∀ m c, s.2 = .lin m c → tol < d.2 * m) :
    ∀ s ∈ slopes dw, IsPiece s := by
  intro s hs
  obtain ⟨d, hd, hw, h1, h2, h3⟩ := mem_slopes.1 hs
  rcases (hm d hd).pieces _ h2 with ⟨v, hv⟩ | ⟨m, c, a, b, e1, e2, e3, e4, e5⟩
  · exact absurd hv (h3 v)
  · exact ⟨m, c, a, b, e1, e2, e3, e4, e5, by rw [h1]; exact hw, by rw [h1]; exact hsl d hd hw _ h2 m c e1⟩

theorem IsPiece.lo {s : CS × Fn × ℚ} (h : IsPiece s) : (loE s).Slope := by
  obtain ⟨m, c, a, b, e1, e2, e3, e4, e5, e6, e7⟩ := h
  exact ⟨⟨a, e3⟩, e6, m, c, by simp [loE, e1], e2⟩

theorem IsPiece.up {s : CS × Fn × ℚ} (h : IsPiece s) : (upE s).Slope := by
  obtain ⟨m, c, a, b, e1, e2, e3, e4, e5, e6, e7⟩ := h
  exact ⟨⟨b, e4⟩, e6, m, c, by simp [upE, e1], e2⟩

theorem IsPiece.ord {s : CS × Fn × ℚ} (h : IsPiece s) : (loE s).at' < (upE s).at' := by
  obtain ⟨m, c, a, b, e1, e2, e3, e4, e5, e6, e7⟩ := h
  simpa [loE, upE, Entry.at', e3, e4] using e5

theorem IsPiece.slope {s : CS × Fn × ℚ} (h : IsPiece s) :
    (upE s).slope = (loE s).slope ∧ tol < (loE s).slope := by
  obtain ⟨m, c, a, b, e1, e2, e3, e4, e5, e6, e7⟩ := h
  simp only [loE, upE, Entry.slope, e1, true_and]
  rwa [mul_comm]

theorem IsPiece.contrib {val : ℤ → ℚ} {s : CS × Fn × ℚ} (h : IsPiece s) (n : ℤ) :
    (loE s).up val n - (upE s).down val n = s.2.2 * climb val n (s.1, s.2.1) := by
  obtain ⟨m, c, a, b, e1, e2, e3, e4, e5, e6, e7⟩ := h
  simp only [loE, upE, Entry.slope, Entry.up, Entry.down, Entry.jump, Entry.at', e1, e3, e4, climb]
  rcases lt_or_ge n a with h1 | h1
  · rw [if_neg (by omega), if_neg (by omega), if_pos h1]; ring
  · rw [if_pos h1, if_neg (not_lt.2 h1)]
    rcases lt_or_ge n b with h2 | h2
    · rw [if_neg (by omega), min_eq_left h2.le]; ring
    · rw [if_pos h2, min_eq_right h2]; ring

/-- The step of a cdf with two pieces, at `n`. -/
def stepAt (n : ℤ) (p : PF) : ℚ := match p with
  | [s, _] => (match s.1.upper with
    | fin k => if k ≤ n then 1 else 0
    | _ => 0)
  | _ => 0

/-- Is a jump at `n` or before? -/
def jAt (n : ℤ) (k : FP) : ℚ := match k with
  | fin k => if k ≤ n then 1 else 0
  | _ => 0

theorem addJump_sum (g : FP → ℚ) (k : FP) (w : ℚ) : ∀ js : List (FP × ℚ),
    ((addJump k w js).map (fun j => j.2 * g j.1)).sum = (js.map (fun j => j.2 * g j.1)).sum + w * g k
  | [] => by simp [addJump]
  | (k', w') :: r => by
    unfold addJump
    split
    · rename_i h; subst h; simp only [List.map_cons, List.sum_cons]; ring
    · simp only [List.map_cons, List.sum_cons, addJump_sum g k w r]; ring

theorem addJump_inv {P : FP → Prop} {k : FP} {w : ℚ} (hk : P k) (hw : 0 ≤ w) : ∀ {js : List (FP × ℚ)},
    (∀ j ∈ js, P j.1 ∧ 0 ≤ j.2) → ∀ j ∈ addJump k w js, P j.1 ∧ 0 ≤ j.2
  | [], _, j, hj => by simp [addJump] at hj; subst hj; exact ⟨hk, hw⟩
  | (k', w') :: r, h, j, hj => by
    unfold addJump at hj
    have h1 := h (k', w') (by simp)
    split at hj
    · rename_i he
      rcases List.mem_cons.1 hj with rfl | hj
      · exact ⟨h1.1, add_nonneg h1.2 hw⟩
      · exact h j (by simp [hj])
    · rcases List.mem_cons.1 hj with rfl | hj
      · exact h1
      · exact addJump_inv hk hw (fun x hx => h x (by simp [hx])) j hj

/-- One round of the loop that collects the jumps. -/
def jumpStep (js : List (FP × ℚ)) (d : PF × ℚ) : List (FP × ℚ) := match d.1 with
  | [s, _] => addJump s.1.upper d.2 js
  | _ => js

theorem jumpsOf_eq (dw : List (PF × ℚ)) : jumpsOf dw = dw.foldl jumpStep [] := rfl

theorem jumps_sum (n : ℤ) : ∀ (dw : List (PF × ℚ)) (js : List (FP × ℚ)),
    ((dw.foldl jumpStep js).map (fun j => j.2 * jAt n j.1)).sum =
      (js.map (fun j => j.2 * jAt n j.1)).sum + (dw.map (fun d => d.2 * stepAt n d.1)).sum
  | [], js => by simp
  | d :: dw, js => by
    rw [List.foldl_cons, jumps_sum n dw, List.map_cons, List.sum_cons, ← add_assoc]
    congr 1
    obtain ⟨p, w⟩ := d
    match p with
    | [] => simp [jumpStep, stepAt]
    | [s] => simp [jumpStep, stepAt]
    | [s, t] => simp only [jumpStep, stepAt]; exact addJump_sum (jAt n) _ _ _
    | s :: t :: r :: q => simp [jumpStep, stepAt]

theorem jumps_inv : ∀ {dw : List (PF × ℚ)} {js : List (FP × ℚ)}, (∀ d ∈ dw, Mergeable d.1 ∧ 0 ≤ d.2) →
    (∀ j ∈ js, (∃ k, j.1 = fin k) ∧ 0 ≤ j.2) → ∀ j ∈ dw.foldl jumpStep js, (∃ k, j.1 = fin k) ∧ 0 ≤ j.2
  | [], js, _, h => h
  | d :: dw, js, hd, h => by
    rw [List.foldl_cons]
    refine jumps_inv (fun x hx => hd x (by simp [hx])) ?_
    obtain ⟨p, w⟩ := d
    have hd' := hd (p, w) (by simp)
    match p with
    | [] => exact h
    | [s] => exact h
    | [s, t] =>
      obtain ⟨k, hk⟩ := (hd'.1.step s t rfl).1
      exact addJump_inv (P := fun x => ∃ k, x = fin k) ⟨k, hk⟩ hd'.2 h
    | s :: t :: r :: q => exact h

theorem filter_sum (g : FP → ℚ) : ∀ {js : List (FP × ℚ)}, (∀ j ∈ js, 0 ≤ j.2) →
    ((js.filter (fun j => j.2 > 0)).map (fun j => j.2 * g j.1)).sum = (js.map (fun j => j.2 * g j.1)).sum
  | [], _ => rfl
  | j :: r, h => by
    have ih := filter_sum g (js := r) (fun x hx => h x (by simp [hx]))
    have hj := h j (by simp)
    by_cases h0 : j.2 > 0
    · simp only [List.filter_cons, h0, decide_true, if_true, List.map_cons, List.sum_cons, ih]
    · have : j.2 = 0 := le_antisymm (not_lt.1 h0) hj
      simp [ih, this]

theorem mass_eq {val : ℤ → ℚ} {p : PF} (h : Mergeable p) (n : ℤ) :
    mass val p n = (p.map (climb val n)).sum + stepAt n p := by
  match p with
  | [] => simp [mass, stepAt]
  | [s] => simp [mass, stepAt]
  | [s, t] =>
    obtain ⟨⟨k, h0⟩, ⟨v, h1⟩, w, h2⟩ := h.step s t rfl
    simp [mass, stepAt, climb, h0, h1, h2]
  | s :: t :: r :: q => simp [mass, stepAt]

theorem slopes_single {val : ℤ → ℚ} {p : PF} {w : ℚ} (hw : 0 < w) (n : ℤ) :
    ((slopes [(p, w)]).map (fun s => s.2.2 * climb val n (s.1, s.2.1))).sum =
      w * (p.map (climb val n)).sum := by
  induction p with
  | nil => simp [slopes]
  | cons s r ih =>
    simp only [slopes, List.flatMap_cons, List.flatMap_nil, List.append_nil] at ih ⊢
    obtain ⟨i, f⟩ := s
    rw [List.map_cons, List.sum_cons, mul_add, ← ih]
    cases f with
    | const v => simp [climb]
    | _ => simp [hw]

theorem slopes_sum {val : ℤ → ℚ} (n : ℤ) : ∀ {dw : List (PF × ℚ)}, (∀ d ∈ dw, 0 ≤ d.2) →
    ((slopes dw).map (fun s => s.2.2 * climb val n (s.1, s.2.1))).sum =
      (dw.map (fun d => d.2 * (d.1.map (climb val n)).sum)).sum
  | [], _ => by simp [slopes]
  | d :: dw, h => by
    rw [slopes_cons, List.map_append, List.sum_append, slopes_sum n (dw := dw) (fun x hx => h x (by simp [hx])),
      List.map_cons, List.sum_cons]
    congr 1
    obtain ⟨p, w⟩ := d
    rcases (h (p, w) (by simp)).lt_or_eq with hw | hw
    · exact slopes_single hw n
    · simp only at hw
      subst hw
      have : slopes [(p, 0)] = [] := by
        rw [List.eq_nil_iff_forall_not_mem]
        intro s hs
        obtain ⟨d, hd, hw, -⟩ := mem_slopes.1 hs
        simp at hd; subst hd; exact lt_irrefl _ hw
      simp [this]

theorem sorted_sum (f : Entry → ℚ) (l : List Entry) : ((sortEntries l).map f).sum = (l.map f).sum :=
  ((sortEntries_perm l).map f).sum_eq

theorem sum_map_sub {α : Type} (f g : α → ℚ) : ∀ l : List α,
    (l.map f).sum - (l.map g).sum = (l.map (fun x => f x - g x)).sum
  | [] => by simp
  | a :: r => by simp only [List.map_cons, List.sum_cons, ← sum_map_sub f g r]; ring

theorem sum_map_add {α : Type} (f g : α → ℚ) : ∀ l : List α,
    (l.map f).sum + (l.map g).sum = (l.map (fun x => f x + g x)).sum
  | [] => by simp
  | a :: r => by simp only [List.map_cons, List.sum_cons, ← sum_map_add f g r]; ring

/-- The entries add up to the mixture. -/
theorem total_mixture {val : ℤ → ℚ} {dw : List (PF × ℚ)} (hm : ∀ d ∈ dw, Mergeable d.1 ∧ 0 ≤ d.2)
    (hp : ∀ s ∈ slopes dw, IsPiece s) (n : ℤ) : total val (lowerOf dw) (upperOf dw) n = mixture val dw n := by
  have hj := jumps_inv hm (js := []) (by simp)
  rw [← jumpsOf_eq] at hj
  rw [total, lowerOf_eq, upperOf_eq, sorted_sum, sorted_sum, List.map_append, List.sum_append, List.map_map,
    List.map_map, List.map_map, add_sub_right_comm, sum_map_sub]
  have h1 : ((slopes dw).map (fun s => (Entry.up val n ∘ loE) s - (Entry.down val n ∘ upE) s)).sum =
      ((slopes dw).map (fun s => s.2.2 * climb val n (s.1, s.2.1))).sum := by
    congr 1
    exact List.map_congr_left fun s hs => (hp s hs).contrib n
  have h2 : (((jumpsOf dw).filter (fun j => j.2 > 0)).map (Entry.up val n ∘ juE)).sum =
      (((jumpsOf dw).filter (fun j => j.2 > 0)).map (fun j => j.2 * jAt n j.1)).sum := by
    congr 1
    refine List.map_congr_left fun j hj' => ?_
    obtain ⟨⟨k, hk⟩, -⟩ := hj j (List.mem_filter.1 hj').1
    simp only [Function.comp, Entry.up, juE, Entry.slope, Entry.jump, Entry.at', hk, jAt]
    split <;> simp
  rw [h1, h2, filter_sum _ (fun j h => (hj j h).2), jumpsOf_eq, jumps_sum, slopes_sum n (fun d hd => (hm d hd).2),
    mixture]
  simp only [List.map_nil, List.sum_nil, zero_add]
  rw [sum_map_add]
  congr 1
  refine List.map_congr_left fun d hd => ?_
  rw [mass_eq (hm d hd).1, mul_add]

end Verif.Num
