import Verif.Functions.ApproxSpec
import Verif.Functions.Props6
import Verif.Functions.Lemmas6

/-!
# Steps of the approximation of piecewise functions
-/

namespace Verif.Fun

open Iv Iv.FP

namespace PF

/-! ### Lists -/

theorem indexOf_append {α : Type} {eq : α → Except Err Bool} {z : α} {V : List α} (hz : eq z = .ok true) :
    ∀ {U : List α}, (∀ x ∈ U, eq x = .ok false) → indexOf eq (U ++ z :: V) = .ok U.length
  | [], _ => by simp [indexOf, hz, bind, Except.bind]
  | x :: U, h => by
    have := indexOf_append (V := V) hz (fun y hy => h y (List.mem_cons_of_mem _ hy))
    simp [indexOf, h x (by simp), bind, Except.bind, this, pure, Except.pure]

theorem eraseIdx_append {α : Type} {z : α} {V : List α} : ∀ {U : List α}, (U ++ z :: V).eraseIdx U.length = U ++ V
  | [] => rfl
  | x :: U => by simp [eraseIdx_append (U := U)]

/-- Removing a segment whose interval and function are not equal to those before it. -/
theorem remove_eq {U V : PF} {s : CS × Fn} {t : Seg} (hi : ∀ x ∈ U, x.1.eq t.i = false) (h0 : s.1.eq t.i = true)
    (hf : ∀ x ∈ U, x.2.eq t.f = .ok false) (h1 : s.2.eq t.f = .ok true) : remove (U ++ s :: V) t = .ok (U ++ V) := by
  have e1 : indexOf (fun i => Except.ok (ε := Err) (i.eq t.i)) ((U ++ s :: V).map (·.1)) = .ok U.length := by
    rw [List.map_append, List.map_cons, indexOf_append (by rw [h0]), List.length_map]
    intro x hx
    obtain ⟨y, hy, rfl⟩ := List.mem_map.1 hx
    rw [hi y hy]
  have e2 : indexOf (fun g => Fn.eq g t.f) ((U ++ s :: V).map (·.2)) = .ok U.length := by
    rw [List.map_append, List.map_cons, indexOf_append (eq := fun g => Fn.eq g t.f) h1, List.length_map]
    intro x hx
    obtain ⟨y, hy, rfl⟩ := List.mem_map.1 hx
    exact hf y hy
  have e3 : ((U ++ s :: V).map (·.1)).eraseIdx U.length = (U ++ V).map (·.1) := by
    rw [List.map_append, List.map_cons, ← List.length_map (as := U) (f := fun x : CS × Fn => x.1), eraseIdx_append,
      List.map_append]
  have e4 : ((U ++ s :: V).map (·.2)).eraseIdx U.length = (U ++ V).map (·.2) := by
    rw [List.map_append, List.map_cons, ← List.length_map (as := U) (f := fun x : CS × Fn => x.2), eraseIdx_append,
      List.map_append]
  simp only [remove, e1, e2, bind, Except.bind, e3, e4]
  congr 1
  rw [List.zip_map']
  simp

/-! ### Overwriting a gap -/

theorem leftover_disjoint {i I : CS} (hi : i.HalfOpen) (hI : I.HalfOpen)
    (hd : ∀ n : ℤ, i.Mem (fin n) → ¬ I.Mem (fin n)) : leftover i I = .ok (.cs i) := by
  rcases CS.halfOpen_intersection hi hI with ⟨g1, g2, g3⟩ | ⟨g1, g2, g3, br, g4, g5⟩
  · simp [leftover, CS.intersectionEnds, g1, bind, Except.bind, CS.difference_emptyset hi.wf]
  · exfalso
    obtain ⟨x, hx⟩ := CS.exists_mem g5.wf g5.nonempty
    obtain ⟨n, rfl⟩ := norm_mem_fin g5 hx
    rw [g5.mem_iff] at hx
    refine hd n ?_ ?_
    · rw [hi.mem_iff]; simp only at hx; grind
    · rw [hI.mem_iff]; simp only at hx; grind

theorem overwriteLoop_gap {I : CS} (hI : I.HalfOpen) : ∀ (p : PF) (k : ℕ), p.length ≤ k →
    (∀ s ∈ p, s.1.HalfOpen ∧ ∀ n : ℤ, s.1.Mem (fin n) → ¬ I.Mem (fin n)) →
    overwriteLoop I k p = .ok (p, p.countP (fun s => decide (I.uppermost > s.1.lowermost)))
  | [], k, _, _ => by cases k <;> rfl
  | (i, f) :: p, k, hk, h => by
    obtain ⟨k, rfl⟩ : ∃ k', k = k' + 1 := ⟨k - 1, by simp at hk; omega⟩
    have ih := overwriteLoop_gap hI p k (by simpa using hk) (fun s hs => h s (List.mem_cons_of_mem _ hs))
    obtain ⟨h1, h2⟩ := h (i, f) (by simp)
    simp only [overwriteLoop, leftover_disjoint h1 hI h2, bind, Except.bind, h1.nonempty, ih, Bool.false_eq_true, if_false,
      List.countP_cons, decide_eq_true_eq]

/-- Overwriting a gap between the pieces `U` and `V`. -/
theorem overwriteAt_gap {I : CS} {f : Fn} (hI : I.HalfOpen) {U V : PF}
    (hU : ∀ s ∈ U, s.1.HalfOpen ∧ (∀ n : ℤ, s.1.Mem (fin n) → ¬ I.Mem (fin n)) ∧ I.uppermost > s.1.lowermost)
    (hV : ∀ s ∈ V, s.1.HalfOpen ∧ (∀ n : ℤ, s.1.Mem (fin n) → ¬ I.Mem (fin n)) ∧ ¬ I.uppermost > s.1.lowermost) :
    overwriteAt (U ++ V) I f = .ok (U ++ (I, f) :: V) := by
  by_cases he : (U ++ V).isEmpty = true
  · simp only [List.isEmpty_iff, List.append_eq_nil_iff] at he
    obtain ⟨rfl, rfl⟩ := he
    rfl
  · have h := overwriteLoop_gap hI (U ++ V) (3 * (U ++ V).length) (by omega) (fun s hs => by
      rcases List.mem_append.1 hs with hs | hs
      · exact ⟨(hU s hs).1, (hU s hs).2.1⟩
      · exact ⟨(hV s hs).1, (hV s hs).2.1⟩)
    have hc : (U ++ V).countP (fun s => decide (I.uppermost > s.1.lowermost)) = U.length := by
      rw [List.countP_append, List.countP_eq_length.2 (fun s hs => by simpa using (hU s hs).2.2),
        List.countP_eq_zero.2 (fun s hs => by simpa using (hV s hs).2.2), Nat.add_zero]
    have hb : I.boundaries none (some .exc) = .ok I := by
      have : CS.mk? I.lower I.upper I.left I.right = .ok I := by simp [CS.mk?, not_lt.2 (le_of_lt hI.1)]
      simp only [CS.boundaries, this, bind, Except.bind]
      simp [CS.convertEnds, hI.2.1]
    have hins : ∀ U : PF, (U ++ V).insertIdx U.length (I, f) = U ++ (I, f) :: V := by
      intro U
      induction U with
      | nil => rfl
      | cons a U ih => simp [ih]
    simp only [overwriteAt, he, h, hc, hb, bind, Except.bind, Bool.false_eq_true, if_false]
    rw [Nat.min_eq_left (by simp), hins]

/-! ### Blocks between knots -/

variable {B : ℤ → ℤ → Fn → Prop}

theorem Blocks.split {a : ℤ} {Q : List ℤ} : ∀ {P : List ℤ} {bs : PF}, Blocks B (P ++ a :: Q) bs →
    ∃ b₁ b₂ : PF, bs = b₁ ++ b₂ ∧ Blocks B (P ++ [a]) b₁ ∧ Blocks B (a :: Q) b₂
  | [], bs, h => ⟨[], bs, rfl, .one a, h⟩
  | [p], bs, h => by
    cases h with
    | cons h1 h2 => exact ⟨[_], _, rfl, .cons h1 (.one a), h2⟩
  | p :: q :: P, bs, h => by
    cases h with
    | cons h1 h2 =>
      obtain ⟨b₁, b₂, rfl, h3, h4⟩ := Blocks.split (P := q :: P) h2
      exact ⟨_ :: b₁, b₂, rfl, .cons h1 h3, h4⟩

theorem Blocks.join {a : ℤ} {Q : List ℤ} : ∀ {P : List ℤ} {b₁ b₂ : PF}, Blocks B (P ++ [a]) b₁ → Blocks B (a :: Q) b₂ →
    Blocks B (P ++ a :: Q) (b₁ ++ b₂)
  | [], b₁, b₂, h1, h2 => by cases h1; exact h2
  | [p], b₁, b₂, h1, h2 => by
    cases h1 with
    | cons h3 h4 => cases h4; exact .cons h3 h2
  | p :: q :: P, b₁, b₂, h1, h2 => by
    cases h1 with
    | cons h3 h4 => exact .cons h3 (Blocks.join (P := q :: P) h4 h2)

theorem Blocks.mem : ∀ {ks : List ℤ} {bs : PF}, Blocks B ks bs → ks.Pairwise (· < ·) → ∀ s ∈ bs,
    ∃ a b, s.1 = co a b ∧ B a b s.2 ∧ a ∈ ks ∧ b ∈ ks ∧ a < b
  | _, _, .one a, _, s, hs => by simp at hs
  | _, _, .cons (a := a) (b := b) h1 h2, hp, s, hs => by
    rcases List.mem_cons.1 hs with rfl | hs
    · exact ⟨a, b, rfl, h1, by simp, by simp, (List.pairwise_cons.1 hp).1 b (by simp)⟩
    · obtain ⟨c, d, e1, e2, e3, e4, e5⟩ := h2.mem (List.pairwise_cons.1 hp).2 s hs
      exact ⟨c, d, e1, e2, by simp [e3], by simp [e4], e5⟩

theorem Blocks.length : ∀ {ks : List ℤ} {bs : PF}, Blocks B ks bs → bs.length + 1 = ks.length
  | _, _, .one a => rfl
  | _, _, .cons _ h => by simp [← h.length]

/-! ### Intervals -/

theorem co_halfOpen {a b : ℤ} (h : a < b) : (co a b).HalfOpen := ⟨by simp [co, FP.lt_def, leb]; omega, rfl, .inr ⟨by simp [co], rfl⟩⟩

theorem co_mem {a b n : ℤ} : (co a b).Mem (fin n) ↔ a ≤ n ∧ n < b := by
  simp [co, CS.Mem, FP.lt_def, leb]; omega

theorem co_eq {a b c d : ℤ} (h : a < b) (h' : c < d) : (co a b).eq (co c d) = decide (a = c ∧ b = d) := by
  have e1 := (co_halfOpen h).nonempty
  have e2 := (co_halfOpen h').nonempty
  rw [CS.eq, e1, e2]
  simp only [co, CS.lowermost, CS.uppermost, FP.dn, if_true, reduceCtorEq, if_false, FP.fin.injEq, Bool.and_self, Bool.or_false,
    ← Bool.decide_and]
  congr 1
  simp

theorem firstI_halfOpen (a : ℤ) : (firstI a).HalfOpen := by simp [CS.HalfOpen, firstI, FP.lt_def, leb]
theorem lastI_halfOpen (a : ℤ) : (lastI a).HalfOpen := by simp [CS.HalfOpen, lastI, FP.lt_def, leb]

theorem firstI_mem {a n : ℤ} : (firstI a).Mem (fin n) ↔ n < a := by
  simp [firstI, CS.Mem, FP.lt_def, leb]

theorem lastI_mem {a n : ℤ} : (lastI a).Mem (fin n) ↔ a ≤ n := by
  simp [lastI, CS.Mem, FP.lt_def, leb]; omega

theorem firstI_eq {a b c : ℤ} : (firstI a).eq (co b c) = false := by
  rw [CS.eq, (firstI_halfOpen a).nonempty]
  simp [firstI, co, CS.lowermost, FP.up]

end PF

end Verif.Fun
