import Verif.Numeric.Tiles
import Verif.Numeric.RankLemmas
import Mathlib.Tactic.Linarith
import Mathlib.Tactic.Positivity

/-! # The shape of a fitted cdf -/

namespace Verif.Num

open Iv Iv.FP Fun

/-- The line through two points. -/
def lineOf (val : ℤ → ℚ) (a b : ℤ × ℚ) : Fn :=
  .lin ((b.2 - a.2) / (val b.1 - val a.1)) (a.2 - (b.2 - a.2) / (val b.1 - val a.1) * val a.1)

/-- The lines between neighbouring points. -/
def segs (val : ℤ → ℚ) : List (ℤ × ℚ) → List (ℤ × Fn)
  | a :: b :: r => (a.1, lineOf val a b) :: segs val (b :: r)
  | _ => []

/-- Both coordinates increase. -/
def Rising (pts : List (ℤ × ℚ)) : Prop := pts.Pairwise (fun a b => a.1 < b.1 ∧ a.2 < b.2)

theorem fromPoints_rising {val : ℤ → ℚ} (hval : StrictMono val) {a b : ℤ × ℚ} (h1 : a.1 < b.1)
    (h2 : a.2 < b.2) : Fn.fromPoints (val a.1, a.2) (val b.1, b.2) = .ok (lineOf val a b) := by
  have := hval h1
  unfold Fn.fromPoints
  rw [if_neg (by simp only; exact ne_of_lt this), if_neg (by simp only; exact ne_of_gt h2)]
  rfl

theorem mk?_co {a : ℤ} {u : FP} (h : fin a ≤ u) :
    CS.mk? (fin a) u .inc .exc = .ok ⟨fin a, u, .inc, .exc⟩ := by
  unfold CS.mk?
  rw [if_neg (not_lt.2 h)]

theorem fitLoop_tile {val : ℤ → ℚ} (hval : StrictMono val) : ∀ (pts : List (ℤ × ℚ)) (a : ℤ × ℚ)
    (l : List (ℤ × Fn)) (f : Fn) (u : FP), pts ≠ [] → Rising (a :: pts) →
    fitLoop val (tile ninf f l u) (a :: pts) =
      .ok (tile ninf f (l ++ segs val (a :: pts)) (fin (pts.getLast?.getD a).1))
  | [], _, _, _, _, h, _ => absurd rfl h
  | [b], a, l, f, u, _, hr => by
    have hab := (List.pairwise_cons.1 hr).1 b (by simp)
    simp only [fitLoop, fromPoints_rising hval hab.1 hab.2, bind, Except.bind,
      mk?_co (a := a.1) (u := fin b.1) (by simp [FP.le_def, leb]; omega), setUpper_tile, tile_append]
    rfl
  | b :: c :: r, a, l, f, u, _, hr => by
    have hab := (List.pairwise_cons.1 hr).1 b (by simp)
    have ih := fitLoop_tile hval (c :: r) b (l ++ [(a.1, lineOf val a b)]) f (fin b.1) (by simp)
      (List.pairwise_cons.1 hr).2
    rw [fitLoop]
    simp only [fromPoints_rising hval hab.1 hab.2, bind, Except.bind,
      mk?_co (a := a.1) (u := fin b.1) (by simp [FP.le_def, leb]; omega), setUpper_tile, tile_append]
    rw [ih]
    have hg := List.getLast?_eq_some_getLast (l := c :: r) (by simp)
    simp [segs, List.getLast?_cons_cons, hg]

theorem tile_getLast {u : FP} : ∀ {l : List (ℤ × Fn)} {k : ℤ} {g : Fn} {lo : FP} {f : Fn},
    (tile lo f (l ++ [(k, g)]) u).getLast? = some (⟨fin k, u, .inc, .exc⟩, g) ∧
    (tile lo f (l ++ [(k, g)]) u).dropLast = tile lo f l (fin k)
  | l, k, g, lo, f => by
    rw [← tile_append]
    simp

theorem closeCdf_tile {l : List (ℤ × Fn)} {k v : ℤ} {g f : Fn} (h : k ≤ v) :
    closeCdf (tile ninf f (l ++ [(k, g)]) (fin v)) =
      .ok (tile ninf f (l ++ [(k, g)] ++ [(v + 1, .const 1)]) pinf) := by
  unfold closeCdf
  rw [tile_getLast.1]
  simp only [bind, Except.bind, FP.up]
  rw [mk?_co (by simp [FP.le_def, leb]; omega)]
  simp only
  rw [mk?_co (by simp [FP.le_def, leb])]
  simp only [tile_getLast.2]
  rw [← tile_append, ← tile_append]
  simp

theorem segs_ne_nil {val : ℤ → ℚ} {a b : ℤ × ℚ} {r : List (ℤ × ℚ)} : segs val (a :: b :: r) ≠ [] := by
  simp [segs]

theorem segs_mem {val : ℤ → ℚ} : ∀ {pts : List (ℤ × ℚ)} {s : ℤ × Fn}, s ∈ segs val pts →
    ∃ p ∈ pts.dropLast, s.1 = p.1
  | [], s, h => by simp [segs] at h
  | [a], s, h => by simp [segs] at h
  | a :: b :: r, s, h => by
    simp only [segs, List.mem_cons] at h
    rcases h with rfl | h
    · exact ⟨a, by simp, rfl⟩
    · obtain ⟨p, hp, e⟩ := segs_mem h
      exact ⟨p, by simp only [List.dropLast_cons_cons]; exact List.mem_cons_of_mem _ hp, e⟩

theorem dropLast_lt {pts : List (ℤ × ℚ)} (hr : Rising pts) {p z : ℤ × ℚ} (hp : p ∈ pts.dropLast)
    (hz : pts.getLast? = some z) : p.1 < z.1 ∧ p.2 < z.2 := by
  obtain ⟨l, rfl⟩ : ∃ l, pts = l ++ [z] := by
    have := List.getLast?_eq_some_iff.1 hz
    exact this
  rw [List.dropLast_concat] at hp
  exact (List.pairwise_append.1 hr).2.2 p hp z (by simp)

theorem segs_knots {val : ℤ → ℚ} : ∀ {pts : List (ℤ × ℚ)}, Rising pts → Knots (segs val pts)
  | [], _ => by simp [segs, Knots]
  | [a], _ => by simp [segs, Knots]
  | a :: b :: r, h => by
    have h' := List.pairwise_cons.1 h
    simp only [segs, Knots, List.pairwise_cons]
    refine ⟨?_, segs_knots h'.2⟩
    intro s hs
    obtain ⟨p, hp, e⟩ := segs_mem hs
    rw [e]
    exact (h'.1 p (List.dropLast_subset _ hp)).1

/-- The cdf through rising points. -/
theorem cdfThrough_tile {val : ℤ → ℚ} (hval : StrictMono val) {a b z : ℤ × ℚ} {r : List (ℤ × ℚ)}
    (hr : Rising (a :: b :: r)) (hz : (a :: b :: r).getLast? = some z) :
    cdfThrough val (a :: b :: r) =
      .ok (tile ninf (.const 0) (segs val (a :: b :: r) ++ [(z.1 + 1, .const 1)]) pinf) := by
  have e0 : ([(CS.allnumbers, .const 0)] : PF) = tile ninf (.const 0) [] pinf := rfl
  have hz' : ((b :: r).getLast?.getD a) = z := by
    rw [List.getLast?_cons_cons] at hz
    rw [hz]; rfl
  rw [cdfThrough, e0, fitLoop_tile hval (b :: r) a [] (.const 0) pinf (by simp) hr, hz', List.nil_append]
  simp only [bind, Except.bind]
  obtain ⟨l, ⟨k, g⟩, e⟩ : ∃ (l : List (ℤ × Fn)) (s : ℤ × Fn), segs val (a :: b :: r) = l ++ [s] :=
    ⟨_, _, (List.dropLast_append_getLast segs_ne_nil).symm⟩
  rw [e]
  apply closeCdf_tile
  have hm : (k, g) ∈ segs val (a :: b :: r) := by rw [e]; simp
  obtain ⟨p, hp, hk⟩ := segs_mem hm
  have := dropLast_lt hr hp hz
  simp only at hk
  omega

theorem full_knots {val : ℤ → ℚ} {pts : List (ℤ × ℚ)} {z : ℤ × ℚ} (hr : Rising pts)
    (hz : pts.getLast? = some z) : Knots (segs val pts ++ [(z.1 + 1, .const 1)]) := by
  rw [Knots, List.pairwise_append]
  refine ⟨segs_knots hr, by simp, ?_⟩
  intro s hs t ht
  obtain ⟨p, hp, e⟩ := segs_mem hs
  have := dropLast_lt hr hp hz
  simp at ht
  subst ht
  simp only
  omega

theorem lineOf_eval (val : ℤ → ℚ) (a b : ℤ × ℚ) (x : ℚ) : (lineOf val a b).eval x =
    some (a.2 + (b.2 - a.2) / (val b.1 - val a.1) * (x - val a.1)) := by
  simp only [lineOf, Fn.eval, Option.some.injEq]
  ring

/-- The line through two points between them, and at the second point. -/
theorem lineOf_bounds {val : ℤ → ℚ} (hval : StrictMono val) {a b : ℤ × ℚ} (h1 : a.1 < b.1)
    (h2 : a.2 < b.2) {n : ℤ} (hn1 : a.1 ≤ n) (hn2 : n ≤ b.1) :
    a.2 ≤ a.2 + (b.2 - a.2) / (val b.1 - val a.1) * (val n - val a.1) ∧
    a.2 + (b.2 - a.2) / (val b.1 - val a.1) * (val n - val a.1) ≤ b.2 := by
  have hv : 0 < val b.1 - val a.1 := sub_pos.2 (hval h1)
  have hy : 0 < b.2 - a.2 := sub_pos.2 h2
  have hm : 0 < (b.2 - a.2) / (val b.1 - val a.1) := div_pos hy hv
  have e : (b.2 - a.2) / (val b.1 - val a.1) * (val b.1 - val a.1) = b.2 - a.2 :=
    div_mul_cancel₀ _ hv.ne'
  have l1 : val a.1 ≤ val n := hval.monotone hn1
  have l2 : val n ≤ val b.1 := hval.monotone hn2
  constructor
  · nlinarith
  · nlinarith

theorem lineOf_end {val : ℤ → ℚ} (hval : StrictMono val) {a b : ℤ × ℚ} (h1 : a.1 < b.1) :
    a.2 + (b.2 - a.2) / (val b.1 - val a.1) * (val b.1 - val a.1) = b.2 := by
  have hv : 0 < val b.1 - val a.1 := sub_pos.2 (hval h1)
  rw [div_mul_cancel₀ _ hv.ne']; ring

end Verif.Num
