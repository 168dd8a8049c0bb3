import Verif.Numeric.Merge
import Verif.Numeric.CropLemmas3
import Mathlib.Algebra.BigOperators.Group.List.Basic
import Mathlib.Tactic.Linarith
import Mathlib.Tactic.Ring

/-! # Merging cdfs: one round of the sweep -/

namespace Verif.Num

open Iv Iv.FP Fun

namespace Entry

/-- The position of a finite bound. -/
def at' (e : Entry) : ℤ := match e.pos with
  | fin k => k
  | _ => 0

/-- The weighted slope. -/
def slope (e : Entry) : ℚ := match e.f with
  | some (.lin a _) => a * e.w
  | _ => 0

/-- The weight of a jump. -/
def jump (e : Entry) : ℚ := match e.f with
  | none => e.w
  | _ => 0

/-- A linear piece with a finite bound and positive slope. -/
def Slope (e : Entry) : Prop := (∃ k, e.pos = fin k) ∧ 0 < e.w ∧ ∃ a c, e.f = some (.lin a c) ∧ 0 < a

/-- A linear piece, or a jump at a finite position. -/
def Good (e : Entry) : Prop := e.Slope ∨ ((∃ k, e.pos = fin k) ∧ 0 < e.w ∧ e.f = none)

theorem Good.pos {e : Entry} (h : e.Good) : e.pos = fin e.at' := by
  rcases h with ⟨⟨k, h⟩, -⟩ | ⟨⟨k, h⟩, -⟩ <;> simp [at', h]

theorem Slope.pos {e : Entry} (h : e.Slope) : e.pos = fin e.at' := Good.pos (.inl h)

theorem Slope.slope_pos {e : Entry} (h : e.Slope) : 0 < e.slope := by
  obtain ⟨-, hw, a, c, hf, ha⟩ := h
  simp only [slope, hf]; positivity

theorem Good.slope_nonneg {e : Entry} (h : e.Good) : 0 ≤ e.slope := by
  rcases h with h | ⟨-, -, h⟩
  · exact h.slope_pos.le
  · simp [slope, h]

theorem Good.jump_nonneg {e : Entry} (h : e.Good) : 0 ≤ e.jump := by
  rcases h with ⟨-, -, a, c, h, -⟩ | ⟨-, hw, h⟩
  · simp [jump, h]
  · simpa [jump, h] using hw.le

end Entry

/-- The entries in the order of their positions. -/
def Sorted (l : List Entry) : Prop := l.Pairwise (fun a b => a.at' ≤ b.at')

theorem takeLower_some {fu : FP} {k : ℤ} : ∀ {l : List Entry} {m o : ℚ}, (∀ e ∈ l, e.Good) → Sorted l →
    (∀ e ∈ l, k ≤ e.at') → ∃ l1 l2, l = l1 ++ l2 ∧ (∀ e ∈ l1, e.at' = k) ∧ (∀ e ∈ l2, k < e.at') ∧
      takeLower fu l (some (fin k)) m o =
        (l2, some (fin k), m + (l1.map Entry.slope).sum, o + (l1.map Entry.jump).sum)
  | [], m, o, _, _, _ => ⟨[], [], rfl, by simp, by simp, by simp [takeLower]⟩
  | e :: r, m, o, hg, hs, hk => by
    have hs' := List.pairwise_cons.1 hs
    have hge := hg e (by simp)
    by_cases he : e.at' = k
    · obtain ⟨l1, l2, h1, h2, h3, h4⟩ := takeLower_some (fu := fu) (k := k) (l := r) (m := m + e.slope)
        (o := o + e.jump) (fun x hx => hg x (by simp [hx])) hs'.2 (fun x hx => hk x (by simp [hx]))
      refine ⟨e :: l1, l2, by simp [h1], ?_, h3, ?_⟩
      · intro x hx
        rcases List.mem_cons.1 hx with rfl | hx
        · exact he
        · exact h2 x hx
      · have hp := hge.pos
        rw [he] at hp
        have : takeLower fu (e :: r) (some (fin k)) m o =
            takeLower fu r (some (fin k)) (m + e.slope) (o + e.jump) := by
          rcases hge with ⟨-, hw, a, c, hf, ha⟩ | ⟨-, hw, hf⟩
          · simp [takeLower, hp, hf, ha.ne', Entry.slope, Entry.jump]
          · simp [takeLower, hp, hf, Entry.slope, Entry.jump]
        rw [this, h4]
        simp [add_assoc]
    · have hlt : k < e.at' := lt_of_le_of_ne (hk e (by simp)) (Ne.symm he)
      refine ⟨[], e :: r, rfl, by simp, ?_, ?_⟩
      · intro x hx
        rcases List.mem_cons.1 hx with rfl | hx
        · exact hlt
        · exact hlt.trans_le (hs'.1 x hx)
      · have hp := hge.pos
        simp [takeLower, hp, Ne.symm he]

theorem takeUpper_some {fl : FP} {k : ℤ} : ∀ {l : List Entry} {m : ℚ}, (∀ e ∈ l, e.Slope) → Sorted l →
    (∀ e ∈ l, k ≤ e.at') → ∃ l1 l2, l = l1 ++ l2 ∧ (∀ e ∈ l1, e.at' = k) ∧ (∀ e ∈ l2, k < e.at') ∧
      takeUpper fl l (some (fin k)) m = .ok (l2, some (fin k), m - (l1.map Entry.slope).sum)
  | [], m, _, _, _ => ⟨[], [], rfl, by simp, by simp, by simp [takeUpper]⟩
  | e :: r, m, hg, hs, hk => by
    have hs' := List.pairwise_cons.1 hs
    have hge := hg e (by simp)
    by_cases he : e.at' = k
    · obtain ⟨l1, l2, h1, h2, h3, h4⟩ := takeUpper_some (fl := fl) (k := k) (l := r) (m := m - e.slope)
        (fun x hx => hg x (by simp [hx])) hs'.2 (fun x hx => hk x (by simp [hx]))
      refine ⟨e :: l1, l2, by simp [h1], ?_, h3, ?_⟩
      · intro x hx
        rcases List.mem_cons.1 hx with rfl | hx
        · exact he
        · exact h2 x hx
      · have hp := hge.pos
        rw [he] at hp
        have : takeUpper fl (e :: r) (some (fin k)) m = takeUpper fl r (some (fin k)) (m - e.slope) := by
          obtain ⟨-, hw, a, c, hf, ha⟩ := hge
          simp [takeUpper, hp, hf, ha.ne', Entry.slope]
        rw [this, h4]
        simp [sub_sub]
    · have hlt : k < e.at' := lt_of_le_of_ne (hk e (by simp)) (Ne.symm he)
      refine ⟨[], e :: r, rfl, by simp, ?_, ?_⟩
      · intro x hx
        rcases List.mem_cons.1 hx with rfl | hx
        · exact hlt
        · exact hlt.trans_le (hs'.1 x hx)
      · have hp := hge.pos
        simp [takeUpper, hp, Ne.symm he]

theorem takeLower_start {fu : FP} {e : Entry} {r : List Entry} {m o : ℚ} (hg : e.Good) (h : e.pos ≤ fu) :
    takeLower fu (e :: r) none m o = takeLower fu (e :: r) (some (fin e.at')) m o := by
  have hp := hg.pos
  rw [hp] at h
  rcases hg with ⟨-, hw, a, c, hf, ha⟩ | ⟨-, hw, hf⟩
  · simp [takeLower, hp, hf, ha.ne', h]
  · simp [takeLower, hp, hf, h]

theorem takeUpper_start {fl : FP} {e : Entry} {r : List Entry} {m : ℚ} (hg : e.Slope) (h : e.pos ≤ fl) :
    takeUpper fl (e :: r) none m = takeUpper fl (e :: r) (some (fin e.at')) m := by
  have hp := hg.pos
  rw [hp] at h
  obtain ⟨-, hw, a, c, hf, ha⟩ := hg
  simp [takeUpper, hp, hf, ha.ne', h]

/-- The outcome of one round: everything at the least position is removed. -/
def Round (lo up : List Entry) (m : ℚ) : Prop :=
    ∃ (k : ℤ) (lo1 lo2 up1 up2 : List Entry) (p : Option FP) (m1 : ℚ),
      lo = lo1 ++ lo2 ∧ up = up1 ++ up2 ∧ lo1 ++ up1 ≠ [] ∧
      (∀ e ∈ lo1, e.at' = k) ∧ (∀ e ∈ lo2, k < e.at') ∧ (∀ e ∈ up1, e.at' = k) ∧ (∀ e ∈ up2, k < e.at') ∧
      takeLower (firstPos up) lo none m 0 = (lo2, p, m1, (lo1.map Entry.jump).sum) ∧
      takeUpper (firstPos lo2) up p m1 =
        .ok (up2, some (fin k), m + (lo1.map Entry.slope).sum - (up1.map Entry.slope).sum)

/-- One round: everything at the least position is removed. -/
theorem round {lo up : List Entry} {m : ℚ} (hl : ∀ e ∈ lo, e.Good) (hu : ∀ e ∈ up, e.Slope) (hsl : Sorted lo)
    (hsu : Sorted up) (hne : lo ++ up ≠ []) : Round lo up m := by
  have hcons : ∀ {e : Entry} {r : List Entry}, Sorted (e :: r) → ∀ x ∈ e :: r, e.at' ≤ x.at' := by
    intro e r h x hx
    rcases List.mem_cons.1 hx with rfl | hx
    · exact le_rfl
    · exact (List.pairwise_cons.1 h).1 x hx
  -- the position comes from `lower`
  have A : ∀ (e : Entry) (r : List Entry), lo = e :: r → e.pos ≤ firstPos up → (∀ x ∈ up, e.at' ≤ x.at') → Round lo up m := by
      intro e r hlo hle hmin
      subst hlo
      obtain ⟨l1, l2, h1, h2, h3, h4⟩ := takeLower_some (fu := firstPos up) (m := m) (o := 0) hl hsl (hcons hsl)
      obtain ⟨u1, u2, g1, g2, g3, g4⟩ := takeUpper_some (fl := firstPos l2) (m := m + (l1.map Entry.slope).sum)
        hu hsu hmin
      have hne1 : l1 ≠ [] := by
        rintro rfl
        have := h3 e (by rw [← List.nil_append l2, ← h1]; simp)
        exact lt_irrefl _ this
      refine ⟨e.at', l1, l2, u1, u2, some (fin e.at'), _, h1, g1, by simp [hne1], h2, h3, g2, g3, ?_, g4⟩
      rw [takeLower_start (hl e (by simp)) hle, h4, zero_add]
  -- the position comes from `upper`
  have B : ∀ (e : Entry) (r : List Entry), up = e :: r → (∀ x ∈ lo, e.at' < x.at') → Round lo up m := by
      intro e r hup hmin
      subst hup
      have hle : e.pos ≤ firstPos lo := by
        rw [(hu e (by simp)).pos]
        cases lo with
        | nil => simp [firstPos, FP.le_def, leb]
        | cons x s =>
          have := hmin x (by simp)
          simp only [firstPos, (hl x (by simp)).pos, FP.le_def, leb, decide_eq_true_eq]
          exact this.le
      obtain ⟨u1, u2, g1, g2, g3, g4⟩ := takeUpper_some (fl := firstPos lo) (m := m) hu hsu (hcons hsu)
      have hne1 : u1 ≠ [] := by
        rintro rfl
        have := g3 e (by rw [← List.nil_append u2, ← g1]; simp)
        exact lt_irrefl _ this
      refine ⟨e.at', [], lo, u1, u2, none, m, rfl, g1, by simp [hne1], by simp, hmin, g2, g3, ?_, ?_⟩
      · cases lo with
        | nil => simp [takeLower]
        | cons x s =>
          have := hmin x (by simp)
          have hn : ¬ (fin x.at' ≤ fin e.at') := by simp only [FP.le_def, leb, decide_eq_true_eq]; omega
          simp [takeLower, firstPos, (hl x (by simp)).pos, (hu e (by simp)).pos, hn]
      · rw [takeUpper_start (hu e (by simp)) hle, g4]; simp
  cases lo with
  | nil =>
    cases up with
    | nil => exact absurd rfl hne
    | cons e r => exact B e r rfl (by simp)
  | cons x s =>
    cases up with
    | nil => exact A x s rfl (by simp [firstPos, FP.le_def, (hl x (by simp)).pos, leb]) (by simp)
    | cons e r =>
      by_cases h : x.at' ≤ e.at'
      · exact A x s rfl (by simpa [firstPos, FP.le_def, (hl x (by simp)).pos, (hu e (by simp)).pos, leb] using h)
          (fun y hy => h.trans (hcons hsu y hy))
      · exact B e r rfl (fun y hy => (not_le.1 h).trans_le (hcons hsl y hy))

end Verif.Num
