import Verif.Common
import Verif.Swap
import Verif.CUtils.Model

/-!
# Model of CPython's `heapq`, as used by `jpt.base.utils.Heap`

The heap is the first `n` cells of a memory.  CPython moves a hole through the array and writes the
new item at the end; here every step of the hole is a swap, which leaves the same array.  CPython's
cache friendly `heapify` for more than 2500 entries visits the parents in another order; the order
of the Python reference implementation (`Lib/heapq.py`) is modelled.
-/

namespace Verif.HQ

variable {α β : Type} [LinearOrder α]

/-- `heapq._siftdown(heap, startpos, pos)`: move the item at `pos` towards `startpos` while it is
smaller than its parent.  `fuel` bounds the number of steps. -/
def bubble (key : β → α) (start : ℕ) : (fuel : ℕ) → (a : ℕ → β) → (pos : ℕ) → (ℕ → β)
  | 0, a, _ => a
  | fuel + 1, a, pos =>
    if start < pos then
      let parent := (pos - 1) / 2
      if key (a pos) < key (a parent) then
        bubble key start fuel (swapAt a pos parent) parent
      else a
    else a

/-- `heapq._siftup(heap, pos)`: move the smaller child up until a leaf is reached, then `_siftdown`
from there. -/
def sink (key : β → α) (n start : ℕ) : (fuel : ℕ) → (a : ℕ → β) → (pos : ℕ) → (ℕ → β)
  | 0, a, pos => bubble key start pos a pos
  | fuel + 1, a, pos =>
    let child := 2 * pos + 1
    if child < n then
      let c := if child + 1 < n ∧ ¬ key (a child) < key (a (child + 1)) then child + 1 else child
      sink key n start fuel (swapAt a pos c) c
    else bubble key start pos a pos

/-- `heapq.heapify`: `_siftup` for `i = s - 1, …, 0`, with `s = n // 2`. -/
def heapifyFrom (key : β → α) (n : ℕ) : (s : ℕ) → (a : ℕ → β) → (ℕ → β)
  | 0, a => a
  | s + 1, a => heapifyFrom key n s (sink key n s n a s)

/-- `a[i] = v`. -/
def put {β : Type} (a : ℕ → β) (i : ℕ) (v : β) : ℕ → β := fun k => if k = i then v else a k

/-- `heapq.heappush`. -/
def heappush (key : β → α) (n : ℕ) (a : ℕ → β) (x : β) : ℕ → β :=
  bubble key 0 n (put a n x) n

/-- `heapq.heappop` for a heap with `n + 1` entries; the result has `n`. -/
def heappop (key : β → α) (n : ℕ) (a : ℕ → β) : β × (ℕ → β) :=
  if n = 0 then (a 0, a)
  else (a 0, sink key n 0 n (put a 0 (a n)) 0)

/-! ## Correctness -/

/-- Every parent from `s` on is at most its children. -/
def Heap (key : β → α) (s n : ℕ) (a : ℕ → β) : Prop :=
  ∀ p, s ≤ p → ∀ c, (c = 2 * p + 1 ∨ c = 2 * p + 2) → c < n → key (a p) ≤ key (a c)

/-- `c` lies in the subtree below `s`. -/
inductive Below (s : ℕ) : ℕ → Prop
  | refl : Below s s
  | step {p c : ℕ} : Below s p → (c = 2 * p + 1 ∨ c = 2 * p + 2) → Below s c

theorem Below.le {s c : ℕ} (h : Below s c) : s ≤ c := by
  induction h with
  | refl => exact le_refl _
  | step _ hc ih => omega

theorem Below.parent {s c : ℕ} (h : Below s c) (hc : c ≠ s) : Below s ((c - 1) / 2) := by
  cases h with
  | refl => exact absurd rfl hc
  | step h1 h2 =>
    rename_i p
    have : (c - 1) / 2 = p := by omega
    rw [this]; exact h1

theorem bubble_spec (key : β → α) (s n : ℕ) : ∀ (fuel : ℕ) (a : ℕ → β) (pos : ℕ),
    Below s pos → pos < n → pos ≤ fuel →
    (∀ p, s ≤ p → ∀ c, (c = 2 * p + 1 ∨ c = 2 * p + 2) → c < n → c ≠ pos →
      key (a p) ≤ key (a c)) →
    (∀ p, s ≤ p → (pos = 2 * p + 1 ∨ pos = 2 * p + 2) →
      ∀ c, (c = 2 * pos + 1 ∨ c = 2 * pos + 2) → c < n → key (a p) ≤ key (a c)) →
    Heap key s n (bubble key s fuel a pos) ∧ Moved a (bubble key s fuel a pos) s n
  | 0, a, pos, hb, hpn, hf, h1, h2 => by
    have hpos : pos = 0 := by omega
    refine ⟨fun p hp c hc hcn => h1 p hp c hc hcn (by omega), Moved.refl _ _ _⟩
  | fuel + 1, a, pos, hb, hpn, hf, h1, h2 => by
    simp only [bubble]
    split
    · rename_i hsp
      have hb' := hb.parent (by omega)
      have hle := hb'.le
      split
      · rename_i hlt
        have hq1 : pos = 2 * ((pos - 1) / 2) + 1 ∨ pos = 2 * ((pos - 1) / 2) + 2 := by omega
        generalize (pos - 1) / 2 = q at *
        have sw : ∀ k, swapAt a pos q k = if k = pos then a q else if k = q then a pos else a k :=
          fun k => rfl
        have := bubble_spec key s n fuel (swapAt a pos q) q hb' (by omega) (by omega)
          (by
            intro p hp c hc hcn hcq
            rw [sw, sw]
            by_cases c1 : p = q
            · subst c1
              rw [if_neg (c := p = pos) (by omega), if_pos (c := p = p) rfl]
              by_cases c2 : c = pos
              · rw [if_pos c2]; exact le_of_lt hlt
              · rw [if_neg c2, if_neg hcq]
                exact le_trans (le_of_lt hlt) (h1 p hp c hc hcn c2)
            · rw [if_neg (c := c = pos) (by omega), if_neg hcq]
              by_cases c2 : p = pos
              · subst c2
                rw [if_pos rfl]
                exact h2 q hle hq1 c hc hcn
              · rw [if_neg c2, if_neg c1]
                exact h1 p hp c hc hcn (by omega))
          (by
            intro p hp hqp c hc hcn
            rw [sw, sw, if_neg (c := p = pos) (by omega), if_neg (c := p = q) (by omega)]
            have hpq : key (a p) ≤ key (a q) := h1 p hp q hqp (by omega) (by omega)
            by_cases c1 : c = pos
            · rw [if_pos c1]; exact hpq
            · rw [if_neg c1, if_neg (c := c = q) (by omega)]
              exact le_trans hpq (h1 q hle c hc hcn c1))
        refine ⟨this.1, ?_⟩
        exact (Moved.swap a (by omega) hpn hle (by omega)).trans this.2
      · rename_i hlt
        refine ⟨fun p hp c hc hcn => ?_, Moved.refl _ _ _⟩
        by_cases hcp : c = pos
        · have : p = (pos - 1) / 2 := by omega
          rw [this, hcp]; exact not_lt.1 hlt
        · exact h1 p hp c hc hcn hcp
    · rename_i hsp
      have := hb.le
      refine ⟨fun p hp c hc hcn => h1 p hp c hc hcn (by omega), Moved.refl _ _ _⟩

theorem sink_spec (key : β → α) (s n : ℕ) : ∀ (fuel : ℕ) (a : ℕ → β) (pos : ℕ),
    Below s pos → pos < n → n ≤ pos + fuel →
    (∀ p, s ≤ p → p ≠ pos → ∀ c, (c = 2 * p + 1 ∨ c = 2 * p + 2) → c < n → c ≠ pos →
      key (a p) ≤ key (a c)) →
    (∀ p, s ≤ p → (pos = 2 * p + 1 ∨ pos = 2 * p + 2) →
      ∀ c, (c = 2 * pos + 1 ∨ c = 2 * pos + 2) → c < n → key (a p) ≤ key (a c)) →
    Heap key s n (sink key n s fuel a pos) ∧ Moved a (sink key n s fuel a pos) s n
  | 0, a, pos, hb, hpn, hf, h1, h2 => by omega
  | fuel + 1, a, pos, hb, hpn, hf, h1, h2 => by
    simp only [sink]
    split
    · rename_i hcn
      generalize hc : (if 2 * pos + 1 + 1 < n ∧ ¬ key (a (2 * pos + 1)) < key (a (2 * pos + 1 + 1))
        then 2 * pos + 1 + 1 else 2 * pos + 1) = m
      have f1 : (m = 2 * pos + 1 ∨ m = 2 * pos + 2) ∧ m < n := by
        subst hc; split_ifs <;> omega
      have f2 : ∀ c, (c = 2 * pos + 1 ∨ c = 2 * pos + 2) → c < n → key (a m) ≤ key (a c) := by
        intro c hcc hcn'
        subst hc
        split_ifs with h
        · rcases hcc with rfl | rfl
          · exact not_lt.1 h.2
          · exact le_refl _
        · rcases hcc with rfl | rfl
          · exact le_refl _
          · by_contra hc'
            exact h ⟨hcn', fun h' => hc' (le_of_lt h')⟩
      clear hc
      have sw : ∀ k, swapAt a pos m k = if k = pos then a m else if k = m then a pos else a k :=
        fun k => rfl
      have := sink_spec key s n fuel (swapAt a pos m) m (hb.step f1.1) f1.2 (by omega)
        (by
          intro p hp hpm c hcc hcn' hcm
          rw [sw, sw]
          by_cases c1 : p = pos
          · subst c1
            rw [if_pos rfl, if_neg (c := c = p) (by omega), if_neg hcm]
            exact f2 c hcc hcn'
          · rw [if_neg c1, if_neg hpm]
            by_cases c2 : c = pos
            · rw [if_pos c2]
              subst c2
              exact h2 p hp hcc m f1.1 f1.2
            · rw [if_neg c2, if_neg hcm]
              exact h1 p hp c1 c hcc hcn' c2)
        (by
          intro p hp hmp c hcc hcn'
          have hpp : p = pos := by omega
          subst hpp
          rw [sw, sw, if_pos rfl, if_neg (c := c = p) (by omega), if_neg (c := c = m) (by omega)]
          exact h1 m (by omega) (by omega) c hcc hcn' (by omega))
      refine ⟨this.1, ?_⟩
      have hle := hb.le
      exact (Moved.swap a (by omega) hpn (by omega) f1.2).trans this.2
    · rename_i hcn
      exact bubble_spec key s n pos a pos hb hpn (le_refl _)
        (fun p hp c hc hc' hcp => h1 p hp (by omega) c hc hc' hcp)
        (fun p hp hpos c hc hc' => by omega)

theorem heapifyFrom_spec (key : β → α) (n : ℕ) : ∀ (s : ℕ) (a : ℕ → β), s ≤ n →
    Heap key s n a →
    Heap key 0 n (heapifyFrom key n s a) ∧ Moved a (heapifyFrom key n s a) 0 n
  | 0, a, _, h => ⟨h, Moved.refl _ _ _⟩
  | s + 1, a, hs, h => by
    have h1 := sink_spec key s n n a s Below.refl (by omega) (by omega)
      (fun p hp hps c hc hcn hcs => h p (by omega) c hc hcn) (fun p hp hps => by omega)
    have h2 := heapifyFrom_spec key n s _ (by omega) h1.1
    exact ⟨h2.1, (h1.2.mono (by omega) (le_refl _)).trans h2.2⟩

theorem heap_min (key : β → α) {n : ℕ} {a : ℕ → β} (h : Heap key 0 n a) :
    ∀ i, i < n → key (a 0) ≤ key (a i) := by
  intro i
  induction i using Nat.strong_induction_on with
  | _ i ih =>
    intro hi
    rcases Nat.eq_zero_or_pos i with rfl | hpos
    · exact le_refl _
    · exact le_trans (ih ((i - 1) / 2) (by omega) (by omega))
        (h ((i - 1) / 2) (by omega) i (by omega) hi)

theorem heappush_spec (key : β → α) (n : ℕ) (a : ℕ → β) (x : β) (h : Heap key 0 n a) :
    Heap key 0 (n + 1) (heappush key n a x) ∧ Moved (put a n x) (heappush key n a x) 0 (n + 1) := by
  have hb : ∀ p, Below 0 p := by
    intro p
    induction p using Nat.strong_induction_on with
    | _ p ih =>
      rcases Nat.eq_zero_or_pos p with rfl | hpos
      · exact Below.refl
      · exact Below.step (ih ((p - 1) / 2) (by omega)) (by omega)
  refine bubble_spec key 0 (n + 1) n (put a n x) n (hb n) (by omega) (le_refl _) ?_ ?_
  · intro p _ c hc hcn hcp
    simp only [put]
    rw [if_neg (by omega), if_neg (by omega)]
    exact h p (by omega) c hc (by omega)
  · intro p _ hp c hc hcn; omega

theorem heappop_spec (key : β → α) (n : ℕ) (a : ℕ → β) (h : Heap key 0 (n + 1) a) :
    (heappop key n a).1 = a 0 ∧ (∀ i, i < n + 1 → key (a 0) ≤ key (a i)) ∧
    Heap key 0 n (heappop key n a).2 ∧
    (n ≠ 0 → Moved (put a 0 (a n)) (heappop key n a).2 0 n) := by
  unfold heappop
  refine ⟨by split <;> rfl, heap_min key h, ?_⟩
  split
  · rename_i hn
    subst hn
    exact ⟨fun p _ c _ hc => by omega, fun h => absurd rfl h⟩
  · rename_i hn
    have := sink_spec key 0 n n (put a 0 (a n)) 0 Below.refl (by omega) (by omega)
      (by
        intro p _ hp0 c hc hcn hc0
        simp only [put]
        rw [if_neg hp0, if_neg hc0]
        exact h p (by omega) c hc (by omega))
      (fun p _ hp => by omega)
    exact ⟨this.1, fun _ => this.2⟩

end Verif.HQ
