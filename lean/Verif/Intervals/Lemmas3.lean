import Verif.Intervals.Lemmas2
import Verif.ListAux
import Mathlib.Algebra.Group.Nat.Defs

/-! # Lemmas about `RealSet.simplify` -/

namespace Verif

namespace Iv
open FP
namespace RS

/-- Membership in the pieces of a set. -/
theorem mem_pieces (d : NS) (x : FP) : RS.Mem (pieces d) x ↔ d.Mem x := by
  cases d <;> simp [pieces, RS.Mem, NS.Mem]

theorem all_pieces {P : CS → Prop} {d : NS} (h : d.All P) : ∀ s ∈ pieces d, P s := by
  cases d <;> simpa [pieces, NS.All] using h

theorem mem_append (a b : List CS) (x : FP) : RS.Mem (a ++ b) x ↔ RS.Mem a x ∨ RS.Mem b x := by
  simp [RS.Mem, or_and_right, exists_or]

theorem mem_cons (a : CS) (b : List CS) (x : FP) : RS.Mem (a :: b) x ↔ a.Mem x ∨ RS.Mem b x := by
  simp [RS.Mem]

/-- Subtracting `h` from every interval of `t`. -/
theorem diffAll_spec {h : CS} (hw : h.WF) (hr : h.Reg) :
    ∀ {t : List CS} {ds : List NS}, (∀ s ∈ t, s.WF ∧ s.Reg) →
    List.Forall₂ (fun s d => s.difference h = .ok d) t ds →
    (∀ x, RS.Mem (ds.map pieces).flatten x ↔ RS.Mem t x ∧ ¬ h.Mem x) ∧
    (∀ s ∈ (ds.map pieces).flatten, s.WF ∧ s.Reg)
  | [], _, _, .nil => by simp [RS.Mem]
  | s :: t, d :: ds, hall, .cons hd hds => by
    obtain ⟨i1, i2⟩ := diffAll_spec hw hr (fun s hs => hall s (by simp [hs])) hds
    obtain ⟨sw, sr⟩ := hall s (by simp)
    obtain ⟨j1, j2, j3⟩ := CS.difference_mem sw hw sr hr hd
    constructor
    · intro x
      rw [List.map_cons, List.flatten_cons, mem_append, i1, mem_pieces, j1, mem_cons]
      grind
    · intro c hc
      rw [List.map_cons, List.flatten_cons, List.mem_append] at hc
      rcases hc with hc | hc
      · exact ⟨all_pieces j2 c hc, all_pieces j3 c hc⟩
      · exact i2 c hc

theorem disjointify_cons {n : Nat} {h : CS} {t d : List CS}
    (hd : disjointify (n + 1) (h :: t) = .ok d) :
    ∃ ds r, List.Forall₂ (fun s d => s.difference h = .ok d) t ds ∧
      disjointify n (ds.map pieces).flatten = .ok r ∧
      d = if h.isempty then r else h :: r := by
  simp only [disjointify, bind, Except.bind] at hd
  cases hm : t.mapM (fun s => s.difference h) with
  | error e => simp [hm] at hd
  | ok ds =>
    simp only [hm] at hd
    cases hr : disjointify n (ds.map pieces).flatten with
    | error e => simp [hr] at hd
    | ok r =>
      simp only [hr, Except.ok.injEq] at hd
      exact ⟨ds, r, (mapM_ok_iff _ _ _).1 hm, hr, hd.symm⟩

/-- The first loop of `simplify` keeps the members and makes the intervals disjoint and
non-empty. -/
theorem disjointify_spec : ∀ (n : Nat) {l d : List CS}, (∀ s ∈ l, s.WF ∧ s.Reg) →
    disjointify n l = .ok d →
    (∀ x, RS.Mem d x ↔ RS.Mem l x) ∧ (∀ s ∈ d, s.WF ∧ s.Reg ∧ s.isempty = false) ∧
    d.Pairwise CS.Disjoint
  | n, [], d, _, hd => by
    simp only [disjointify, Except.ok.injEq] at hd
    subst hd; simp
  | 0, _ :: _, d, _, hd => by simp [disjointify] at hd
  | n + 1, h :: t, d, hall, hd => by
    obtain ⟨ds, r, hds, hr, rfl⟩ := disjointify_cons hd
    obtain ⟨hw, hreg⟩ := hall h (by simp)
    obtain ⟨i1, i2⟩ := diffAll_spec hw hreg (fun s hs => hall s (by simp [hs])) hds
    obtain ⟨j1, j2, j3⟩ := disjointify_spec n i2 hr
    by_cases he : h.isempty = true
    · rw [if_pos he]
      refine ⟨fun x => ?_, j2, j3⟩
      have hn : ¬ h.Mem x := fun hx => (CS.isempty_iff h hw).1 he ⟨x, hx⟩
      rw [j1, i1, mem_cons]; grind
    · rw [if_neg he]
      rw [Bool.not_eq_true] at he
      refine ⟨fun x => ?_, ?_, ?_⟩
      · rw [mem_cons, mem_cons, j1, i1]; grind
      · intro s hs
        rcases List.mem_cons.1 hs with rfl | hs
        · exact ⟨hw, hreg, he⟩
        · exact j2 s hs
      · refine List.pairwise_cons.2 ⟨fun s hs x ⟨hx, hy⟩ => ?_, j3⟩
        have : RS.Mem r x := ⟨s, hs, hy⟩
        rw [j1, i1] at this
        exact this.2 hx

/-! ### Termination of the first loop -/

/-- Number of iterations needed for groups of the given sizes when processing one interval adds at
most one interval to every later group. -/
def need : List Nat → Nat
  | [] => 0
  | s :: ss => s + need (ss.map (· + s))
termination_by l => l.length
decreasing_by simp

theorem need_nil : need [] = 0 := by rw [need]
theorem need_cons (s : Nat) (ss : List Nat) : need (s :: ss) = s + need (ss.map (· + s)) := by
  rw [need]

theorem need_mono : ∀ (n : Nat) {a b : List Nat}, a.length = n → List.Forall₂ (· ≤ ·) a b →
    need a ≤ need b
  | 0, [], [], _, _ => by simp
  | n + 1, x :: a, y :: b, hn, .cons h hs => by
    rw [need_cons, need_cons]
    have : List.Forall₂ (· ≤ ·) (a.map (· + x)) (b.map (· + y)) := by
      rw [List.forall₂_map_left_iff, List.forall₂_map_right_iff]
      exact hs.imp (fun _ _ h' => Nat.add_le_add h' h)
    have := need_mono n (by simpa using hn) this
    omega

theorem need_step (s : Nat) (ss : List Nat) : need (s :: ss.map (· + 1)) + 1 = need ((s + 1) :: ss) := by
  rw [need_cons, need_cons, List.map_map]
  have : ((fun x => x + s) ∘ fun x => x + 1) = fun x => x + (s + 1) := by funext x; simp; omega
  rw [this]; omega

theorem need_replicate (n k : Nat) : need (List.replicate n k) = k * (2 ^ n - 1) := by
  induction n generalizing k with
  | zero => simp [need_nil]
  | succ n ih =>
    rw [List.replicate_succ, need_cons, List.map_replicate, ih]
    have : 1 ≤ 2 ^ n := Nat.one_le_two_pow
    rw [pow_succ]
    obtain ⟨m, hm⟩ := Nat.exists_eq_add_of_le this
    rw [hm]
    have : (1 + m) * 2 - 1 = 1 + 2 * m := by omega
    rw [this]
    simp only [Nat.add_sub_cancel_left]
    grind

end RS
end Iv
end Verif
