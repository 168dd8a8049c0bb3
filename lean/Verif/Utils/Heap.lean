import Verif.Utils.Heapq
import Mathlib.Data.Prod.Lex
import Mathlib.Data.List.Nodup
import Mathlib.Tactic.Ring
import Mathlib.Tactic.Positivity

/-!
# Model of `Heap` (`src/jpt/base/utils.py` 453-530)
-/

namespace Verif.HQ

variable {K β : Type} [LinearOrder K] [Inhabited β]

/-- The tuple `(key, index, item)` stored for an item. -/
structure Entry (K β : Type) where
  key : K
  idx : ℤ
  item : β

/-- Tuples are compared lexicographically.  As long as the counters are distinct (`inc ≠ 0`) the
third component is never looked at. -/
def Entry.ord (e : Entry K β) : K ×ₗ ℤ := toLex (e.key, e.idx)

/-- A `Heap` object: `len(_data)`, `_data` and `_index`.  Cells behind `n` are not part of the
object. -/
structure PQ (K β : Type) where
  n : ℕ
  mem : ℕ → Entry K β
  index : ℤ

/-- The entries in storage order (`_data`). -/
def PQ.data (s : PQ K β) : List (Entry K β) := (List.range' 0 s.n).map s.mem

/-- `zip(count(start, inc), data)` with the key computed (utils.py 484). -/
def mkEntries (keyf : β → K) (inc : ℤ) : ℤ → List β → List (Entry K β)
  | _, [] => []
  | i, x :: l => ⟨keyf x, i, x⟩ :: mkEntries keyf inc (i + inc) l

/-- `Heap(data, key, inc)` (utils.py 474-489). -/
def PQ.init (keyf : β → K) (inc : ℤ) (data : List β) : PQ K β :=
  let es := mkEntries keyf inc 0 data
  { n := es.length
    mem := heapifyFrom Entry.ord es.length (es.length / 2)
      (fun i => es.getD i ⟨keyf default, 0, default⟩)
    index := es.length * inc }

/-- `push` (utils.py 491-496). -/
def PQ.push (keyf : β → K) (inc : ℤ) (s : PQ K β) (x : β) : PQ K β :=
  { n := s.n + 1, mem := heappush Entry.ord s.n s.mem ⟨keyf x, s.index, x⟩, index := s.index + inc }

/-- `pop` (utils.py 498-499); `heappop` of an empty list raises `IndexError`. -/
def PQ.pop (s : PQ K β) : Except Err (β × PQ K β) :=
  match s.n with
  | 0 => .error .indexError
  | n + 1 =>
    let r := heappop Entry.ord n s.mem
    .ok (r.1.item, { s with n := n, mem := r.2 })

/-- The position meant by a Python index into a list of length `n`. -/
def pyIndex (n : ℕ) (i : ℤ) : Option ℕ :=
  let j := if i < 0 then i + n else i
  if 0 ≤ j ∧ j < n then some j.toNat else none

/-- `__getitem__` (utils.py 504-505). -/
def PQ.get (s : PQ K β) (i : ℤ) : Except Err β :=
  match pyIndex s.n i with
  | none => .error .indexError
  | some j => .ok (s.mem j).item

/-- `__delitem__` (utils.py 507-508): the entries behind the deleted one move up by one; the heap
order is not restored. -/
def PQ.delete (s : PQ K β) (i : ℤ) : Except Err (PQ K β) :=
  match pyIndex s.n i with
  | none => .error .indexError
  | some j => .ok { s with n := s.n - 1, mem := fun k => if k < j then s.mem k else s.mem (k + 1) }

/-! ## Abstract specification -/

/-- Operations on the queue. -/
inductive Op (β : Type)
  | push (x : β)
  | pop

/-- Specification of a stable priority queue.  The state is the list of waiting items in order of
arrival.  `fifo`: among equal keys the earliest comes first; otherwise the latest. -/
inductive SpecStep (keyf : β → K) (fifo : Bool) :
    List β → Op β → List β → Except Err (Option β) → Prop
  | push (l : List β) (x : β) : SpecStep keyf fifo l (.push x) (l ++ [x]) (.ok none)
  | popEmpty : SpecStep keyf fifo [] .pop [] (.error .indexError)
  | pop (pre post : List β) (x : β)
      (h1 : ∀ y ∈ pre, if fifo then keyf x < keyf y else keyf x ≤ keyf y)
      (h2 : ∀ y ∈ post, if fifo then keyf x ≤ keyf y else keyf x < keyf y) :
      SpecStep keyf fifo (pre ++ x :: post) .pop (pre ++ post) (.ok (some x))

/-- One operation of the model with its observable result. -/
def PQ.step (keyf : β → K) (inc : ℤ) (s : PQ K β) : Op β → PQ K β × Except Err (Option β)
  | .push x => (s.push keyf inc x, .ok none)
  | .pop =>
    match s.pop with
    | .error e => (s, .error e)
    | .ok (x, s') => (s', .ok (some x))

/-- A history of operations with all observable results. -/
def PQ.run (keyf : β → K) (inc : ℤ) : PQ K β → List (Op β) → PQ K β × List (Except Err (Option β))
  | s, [] => (s, [])
  | s, o :: os =>
    let r := s.step keyf inc o
    let r' := PQ.run keyf inc r.1 os
    (r'.1, r.2 :: r'.2)

/-- Histories of the specification. -/
inductive SpecRun (keyf : β → K) (fifo : Bool) :
    List β → List (Op β) → List β → List (Except Err (Option β)) → Prop
  | nil (l : List β) : SpecRun keyf fifo l [] l []
  | cons {l l' l'' : List β} {o : Op β} {os : List (Op β)} {r : Except Err (Option β)}
      {rs : List (Except Err (Option β))} (h1 : SpecStep keyf fifo l o l' r)
      (h2 : SpecRun keyf fifo l' os l'' rs) : SpecRun keyf fifo l (o :: os) l'' (r :: rs)

/-! ## Refinement -/

omit [Inhabited β] in
theorem Entry.ord_le {e f : Entry K β} :
    e.ord ≤ f.ord ↔ e.key < f.key ∨ (e.key = f.key ∧ e.idx ≤ f.idx) := by
  unfold Entry.ord
  rw [Prod.Lex.toLex_le_toLex]

/-- The heap object `s` holds the waiting items `l` (in order of arrival). -/
def Holds (keyf : β → K) (inc : ℤ) (s : PQ K β) (l : List β) : Prop :=
  ∃ es : List (Entry K β), es.map Entry.item = l ∧ (∀ e ∈ es, e.key = keyf e.item) ∧
    es.Pairwise (fun e f => 0 < inc * (f.idx - e.idx)) ∧
    (∀ e ∈ es, 0 < inc * (s.index - e.idx)) ∧ s.data.Perm es ∧ Heap Entry.ord 0 s.n s.mem

omit [LinearOrder K] [Inhabited β] in
theorem put_last_perm (a : ℕ → Entry K β) (n : ℕ) (x : Entry K β) :
    (List.range' 0 (n + 1)).map (put a n x) = (List.range' 0 n).map a ++ [x] := by
  rw [List.range'_1_concat, List.map_append]
  congr 1
  · apply List.map_congr_left
    intro k hk
    have := List.mem_range'_1.1 hk
    simp only [put]
    rw [if_neg (by omega)]
  · simp [put]

omit [LinearOrder K] [Inhabited β] in
theorem put_first_perm (a : ℕ → Entry K β) (n : ℕ) (hn : n ≠ 0) :
    ((List.range' 0 n).map (put a 0 (a n))).Perm ((List.range' 1 n).map a) := by
  obtain ⟨m, rfl⟩ : ∃ m, n = m + 1 := ⟨n - 1, by omega⟩
  have h1 : List.range' 0 (m + 1) = 0 :: List.range' 1 m := List.range'_succ
  rw [h1, List.range'_1_concat (s := 1) (n := m), List.map_append, List.map_cons]
  have h2 : (List.range' 1 m).map (put a 0 (a (m + 1))) = (List.range' 1 m).map a := by
    apply List.map_congr_left
    intro k hk
    have := List.mem_range'_1.1 hk
    simp only [put]
    rw [if_neg (by omega)]
  rw [h2]
  have h3 : put a 0 (a (m + 1)) 0 = a (m + 1) := by simp [put]
  rw [h3, List.map_cons, List.map_nil, Nat.add_comm 1 m]
  exact (List.perm_append_singleton _ _).symm

omit [LinearOrder K] [Inhabited β] in
theorem mkEntries_spec (keyf : β → K) (inc : ℤ) (hinc : inc ≠ 0) : ∀ (l : List β) (i : ℤ),
    (mkEntries keyf inc i l).map Entry.item = l ∧
    (mkEntries keyf inc i l).length = l.length ∧
    (∀ e ∈ mkEntries keyf inc i l, e.key = keyf e.item) ∧
    (mkEntries keyf inc i l).Pairwise (fun e f => 0 < inc * (f.idx - e.idx)) ∧
    (∀ e ∈ mkEntries keyf inc i l, 0 < inc * (i + l.length * inc - e.idx)) ∧
    (∀ e ∈ mkEntries keyf inc i l, 0 ≤ inc * (e.idx - i))
  | [], i => by simp [mkEntries]
  | x :: l, i => by
    obtain ⟨h1, h2, h3, h4, h5, h6⟩ := mkEntries_spec keyf inc hinc l (i + inc)
    have hpos : 0 < inc * inc := mul_self_pos.2 hinc
    refine ⟨by simp [mkEntries, h1], by simp [mkEntries, h2], ?_, ?_, ?_, ?_⟩
    · intro e he
      rcases List.mem_cons.1 he with rfl | he
      · rfl
      · exact h3 e he
    · refine List.pairwise_cons.2 ⟨fun e he => ?_, h4⟩
      have := h6 e he
      have e1 : inc * (e.idx - i) = inc * (e.idx - (i + inc)) + inc * inc := by ring
      rw [e1]; linarith
    · intro e he
      rcases List.mem_cons.1 he with rfl | he
      · have e1 : inc * (i + ↑(x :: l).length * inc - i) = (l.length + 1 : ℕ) * (inc * inc) := by
          push_cast [List.length_cons]; ring
        rw [e1]; positivity
      · have := h5 e he
        have e1 : inc * (i + ↑(x :: l).length * inc - e.idx)
            = inc * (i + inc + ↑l.length * inc - e.idx) := by
          push_cast [List.length_cons]; ring
        rw [e1]; exact this
    · intro e he
      rcases List.mem_cons.1 he with rfl | he
      · simp
      · have := h6 e he
        have e1 : inc * (e.idx - i) = inc * (e.idx - (i + inc)) + inc * inc := by ring
        rw [e1]; linarith

theorem init_holds (keyf : β → K) (inc : ℤ) (hinc : inc ≠ 0) (data : List β) :
    Holds keyf inc (PQ.init keyf inc data) data := by
  obtain ⟨h1, h2, h3, h4, h5, -⟩ := mkEntries_spec keyf inc hinc data 0
  have hh := heapifyFrom_spec (Entry.ord (K := K) (β := β)) (mkEntries keyf inc 0 data).length
    ((mkEntries keyf inc 0 data).length / 2)
    (fun i => (mkEntries keyf inc 0 data).getD i ⟨keyf default, 0, default⟩)
    (by omega) (fun p hp c hc hcn => by omega)
  refine ⟨mkEntries keyf inc 0 data, h1, h3, h4, ?_, ?_, hh.1⟩
  · intro e he
    have := h5 e he
    simp only [PQ.init, h2]
    simpa using this
  · have := hh.2.perm
    refine this.trans ?_
    apply List.Perm.of_eq
    apply List.ext_getElem?
    intro i
    rw [List.getElem?_map]
    rcases Nat.lt_or_ge i (mkEntries keyf inc 0 data).length with hi | hi
    · rw [List.getElem?_range' (by omega)]
      simp [hi]
    · rw [List.getElem?_eq_none (by simpa using hi), List.getElem?_eq_none (by simpa using hi)]
      rfl

theorem push_holds (keyf : β → K) (inc : ℤ) (hinc : inc ≠ 0) (s : PQ K β) (l : List β) (x : β)
    (h : Holds keyf inc s l) : Holds keyf inc (s.push keyf inc x) (l ++ [x]) := by
  obtain ⟨es, h1, h2, h3, h4, h5, h6⟩ := h
  have hp := heappush_spec Entry.ord s.n s.mem ⟨keyf x, s.index, x⟩ h6
  have hpos : 0 < inc * inc := mul_self_pos.2 hinc
  refine ⟨es ++ [⟨keyf x, s.index, x⟩], by simp [h1], ?_, ?_, ?_, ?_, hp.1⟩
  · intro e he
    rcases List.mem_append.1 he with he | he
    · exact h2 e he
    · rw [List.mem_singleton.1 he]
  · rw [List.pairwise_append]
    refine ⟨h3, List.pairwise_singleton _ _, fun e he f hf => ?_⟩
    rw [List.mem_singleton.1 hf]
    exact h4 e he
  · intro e he
    simp only [PQ.push]
    rcases List.mem_append.1 he with he | he
    · have := h4 e he
      have e1 : inc * (s.index + inc - e.idx) = inc * (s.index - e.idx) + inc * inc := by ring
      rw [e1]; linarith
    · rw [List.mem_singleton.1 he]
      have e1 : inc * (s.index + inc - s.index) = inc * inc := by ring
      simp only [e1]; exact hpos
  · have := hp.2.perm
    refine this.trans ?_
    rw [Nat.sub_zero, put_last_perm]
    exact h5.append_right _

theorem pop_holds (keyf : β → K) (inc : ℤ) (hinc : inc ≠ 0) (s : PQ K β) (l : List β)
    (h : Holds keyf inc s l) :
    (l = [] ∧ s.n = 0 ∧ s.pop = .error .indexError) ∨
    ∃ pre x post s', l = pre ++ x :: post ∧ s.pop = .ok (x, s') ∧ s.n = s'.n + 1 ∧
      (s.mem 0).item = x ∧ Holds keyf inc s' (pre ++ post) ∧
      (∀ y ∈ pre, if decide (0 < inc) then keyf x < keyf y else keyf x ≤ keyf y) ∧
      (∀ y ∈ post, if decide (0 < inc) then keyf x ≤ keyf y else keyf x < keyf y) := by
  obtain ⟨es, h1, h2, h3, h4, h5, h6⟩ := h
  rcases s with ⟨n, mem, index⟩
  cases n with
  | zero =>
    left
    have : es = [] := by
      have := h5.length_eq
      simp only [PQ.data, List.range'_zero, List.map_nil, List.length_nil] at this
      exact List.length_eq_zero_iff.1 this.symm
    subst this
    exact ⟨h1.symm, rfl, rfl⟩
  | succ n =>
    right
    have hp := heappop_spec Entry.ord n mem h6
    have hdata : (PQ.mk (n + 1) mem index).data = mem 0 :: (List.range' 1 n).map mem := by
      simp only [PQ.data]
      rw [List.range'_succ, List.map_cons]
    have hmem : mem 0 ∈ es := by
      apply h5.mem_iff.1
      rw [hdata]; exact List.mem_cons_self
    obtain ⟨pre, post, hes⟩ := List.append_of_mem hmem
    have hmin : ∀ e ∈ es, (mem 0).ord ≤ e.ord := by
      intro e he
      have := h5.mem_iff.2 he
      simp only [PQ.data, List.mem_map, List.mem_range'_1] at this
      obtain ⟨k, hk, rfl⟩ := this
      exact hp.2.1 k (by omega)
    have hrest : (((List.range' 1 n).map mem)).Perm (pre ++ post) := by
      have h7 : (mem 0 :: (List.range' 1 n).map mem).Perm (mem 0 :: (pre ++ post)) := by
        rw [← hdata]
        refine h5.trans ?_
        rw [hes]
        exact List.perm_middle
      exact List.Perm.cons_inv h7
    subst hes
    have hk := h2 (mem 0) hmem
    refine ⟨pre.map Entry.item, (mem 0).item, post.map Entry.item,
      ⟨n, (heappop Entry.ord n mem).2, index⟩, by rw [← h1]; simp, ?_, rfl, rfl, ?_, ?_, ?_⟩
    · simp only [PQ.pop, hp.1]
    · refine ⟨pre ++ post, by simp, ?_, ?_, ?_, ?_, hp.2.2.1⟩
      · intro e he
        apply h2 e
        simp only [List.mem_append, List.mem_cons] at he ⊢
        tauto
      · exact h3.sublist (by simp)
      · intro e he
        apply h4 e
        simp only [List.mem_append, List.mem_cons] at he ⊢
        tauto
      · rcases Nat.eq_zero_or_pos n with rfl | hn
        · simpa [PQ.data] using hrest
        · have := (hp.2.2.2 (by omega)).perm
          refine List.Perm.trans ?_ hrest
          refine List.Perm.trans ?_ (put_first_perm mem n (by omega))
          exact this
    · intro y hy
      obtain ⟨e, he, rfl⟩ := List.mem_map.1 hy
      have hle := Entry.ord_le.1 (hmin e (by simp [he]))
      have hpw := (List.pairwise_append.1 h3).2.2 e he (mem 0) List.mem_cons_self
      rw [← hk, ← h2 e (by simp [he])]
      split_ifs with c
      · have c := of_decide_eq_true c
        rcases hle with hle | ⟨_, hle⟩
        · exact hle
        · exfalso; nlinarith
      · rcases hle with hle | ⟨hle, _⟩
        · exact le_of_lt hle
        · exact le_of_eq hle
    · intro y hy
      obtain ⟨e, he, rfl⟩ := List.mem_map.1 hy
      have hle := Entry.ord_le.1 (hmin e (by simp [he]))
      have hpw := (List.pairwise_cons.1 (List.pairwise_append.1 h3).2.1).1 e he
      rw [← hk, ← h2 e (by simp [he])]
      split_ifs with c
      · rcases hle with hle | ⟨hle, _⟩
        · exact le_of_lt hle
        · exact le_of_eq hle
      · have c : inc < 0 := by
          have := of_decide_eq_false (by simpa using c : decide (0 < inc) = false)
          omega
        rcases hle with hle | ⟨_, hle⟩
        · exact hle
        · exfalso; nlinarith

theorem step_holds (keyf : β → K) (inc : ℤ) (hinc : inc ≠ 0) (s : PQ K β) (l : List β) (o : Op β)
    (h : Holds keyf inc s l) :
    ∃ l', SpecStep keyf (decide (0 < inc)) l o l' (s.step keyf inc o).2 ∧
      Holds keyf inc (s.step keyf inc o).1 l' := by
  cases o with
  | push x => exact ⟨l ++ [x], SpecStep.push l x, push_holds keyf inc hinc s l x h⟩
  | pop =>
    rcases pop_holds keyf inc hinc s l h with ⟨rfl, _, he⟩ | ⟨pre, x, post, s', rfl, he, _, _, hs, p1, p2⟩
    · refine ⟨[], ?_, ?_⟩
      · simp only [PQ.step, he]; exact SpecStep.popEmpty
      · simp only [PQ.step, he]; exact h
    · refine ⟨pre ++ post, ?_, ?_⟩
      · simp only [PQ.step, he]; exact SpecStep.pop pre post x p1 p2
      · simp only [PQ.step, he]; exact hs

theorem run_holds (keyf : β → K) (inc : ℤ) (hinc : inc ≠ 0) : ∀ (os : List (Op β)) (s : PQ K β)
    (l : List β), Holds keyf inc s l →
    ∃ l', SpecRun keyf (decide (0 < inc)) l os l' (s.run keyf inc os).2 ∧
      Holds keyf inc (s.run keyf inc os).1 l'
  | [], s, l, h => ⟨l, SpecRun.nil l, h⟩
  | o :: os, s, l, h => by
    obtain ⟨l', h1, h2⟩ := step_holds keyf inc hinc s l o h
    obtain ⟨l'', h3, h4⟩ := run_holds keyf inc hinc os _ l' h2
    exact ⟨l'', SpecRun.cons h1 h3, h4⟩

omit [Inhabited β] in
/-- The specification is deterministic: one possible outcome for every operation. -/
theorem specStep_det (keyf : β → K) (fifo : Bool) {l : List β} {o : Op β} {l1 l2 : List β}
    {r1 r2 : Except Err (Option β)} (h1 : SpecStep keyf fifo l o l1 r1)
    (h2 : SpecStep keyf fifo l o l2 r2) : l1 = l2 ∧ r1 = r2 := by
  cases h1 with
  | push => cases h2; exact ⟨rfl, rfl⟩
  | popEmpty =>
    generalize hl : ([] : List β) = l at h2
    generalize ho : (Op.pop : Op β) = o at h2
    cases h2 with
    | push => cases ho
    | popEmpty => exact ⟨rfl, rfl⟩
    | pop pre post x => simp at hl
  | pop pre post x a1 a2 =>
    generalize hl : pre ++ x :: post = l at h2
    generalize ho : (Op.pop : Op β) = o at h2
    cases h2 with
    | push => cases ho
    | popEmpty => simp at hl
    | pop pre' post' x' b1 b2 =>
      have key : pre = pre' ∧ x = x' ∧ post = post' := by
        rcases List.append_eq_append_iff.1 hl with ⟨as, e1, e2⟩ | ⟨bs, e1, e2⟩
        · cases as with
          | nil => simp at e1 e2; exact ⟨e1.symm, e2.1, e2.2⟩
          | cons z as =>
            exfalso
            simp only [List.cons_append, List.cons.injEq] at e2
            obtain ⟨rfl, rfl⟩ := e2
            have q1 := b1 x (by rw [e1]; simp)
            have q2 := a2 x' (by simp)
            cases fifo <;> simp only [if_true, if_false, Bool.false_eq_true] at q1 q2
            · exact absurd (lt_of_lt_of_le q2 q1) (lt_irrefl _)
            · exact absurd (lt_of_lt_of_le q1 q2) (lt_irrefl _)
        · cases bs with
          | nil => simp at e1 e2; exact ⟨e1, e2.1.symm, e2.2.symm⟩
          | cons z bs =>
            exfalso
            simp only [List.cons_append, List.cons.injEq] at e2
            obtain ⟨rfl, rfl⟩ := e2
            have q1 := a1 x' (by rw [e1]; simp)
            have q2 := b2 x (by simp)
            cases fifo <;> simp only [if_true, if_false, Bool.false_eq_true] at q1 q2
            · exact absurd (lt_of_lt_of_le q2 q1) (lt_irrefl _)
            · exact absurd (lt_of_lt_of_le q1 q2) (lt_irrefl _)
      obtain ⟨rfl, rfl, rfl⟩ := key
      exact ⟨rfl, rfl⟩

end Verif.HQ
