import Verif.Numeric.CdfReg
import Mathlib.Tactic.Ring
import Mathlib.Tactic.Linarith
import Mathlib.Tactic.FieldSimp
import Mathlib.Data.List.Basic
import Mathlib.Algebra.BigOperators.Group.List.Basic

/-! # Lemmas on the CDF regressor -/

namespace Verif.Num.Reg

variable {d : Pts} {eps : ℚ} {ms : Option ℕ}

theorem scanStep_best (s : Scan) (a b k : ℕ) :
    (scanStep d a b s k).best = s.best ∨ (scanStep d a b s k).best = some k := by
  unfold scanStep
  simp only
  split <;> simp

theorem foldl_best (a b : ℕ) : ∀ (l : List ℕ) (s : Scan),
    (l.foldl (scanStep d a b) s).best = s.best ∨
      ∃ k ∈ l, (l.foldl (scanStep d a b) s).best = some k
  | [], s => .inl rfl
  | k :: l, s => by
    rw [List.foldl_cons]
    rcases foldl_best a b l (scanStep d a b s k) with h | ⟨k', hk', h⟩
    · rcases scanStep_best (d := d) s a b k with h' | h'
      · left; rw [h, h']
      · right; exact ⟨k, by simp, by rw [h, h']⟩
    · right; exact ⟨k', by simp [hk'], h⟩

theorem scanInit_best (a b : ℕ) (mse : ℚ) : (scanInit d a b mse).best = none := by
  have : ∀ (l : List ℕ) (s : Scan), s.best = none → (l.foldl (fun s i =>
      let x := d.x i - d.x b
      let y := d.y i - d.y b
      { s with sxxR := s.sxxR + x * x, syyR := s.syyR + y * y, sxyR := s.sxyR + x * y }) s).best
        = none := by
    intro l
    induction l with
    | nil => intro s h; exact h
    | cons k l ih => intro s h; rw [List.foldl_cons]; exact ih _ h
  exact this _ _ rfl

theorem scan_best {a b k : ℕ} {mse : ℚ} (h : (scan d a b mse).best = some k) :
    a < k ∧ k < b := by
  rcases foldl_best (d := d) a b (List.range' (a + 1) (b - (a + 1))) (scanInit d a b mse)
    with h' | ⟨k', hk', h'⟩
  · rw [scanInit_best] at h'
    rw [scan, h'] at h
    cases h
  · rw [scan, h'] at h
    cases h
    simp only [List.mem_range'_1] at hk'
    omega

/-- What one call of `_forward` does. -/
theorem forward_spec (j : Job) :
    (∃ b js, forward d eps ms j = (some b, js) ∧ j.start < b ∧ b < j.stop ∧
      ∃ l₁ l₂ : List Job, js = l₁ ++ l₂ ∧ l₁.length ≤ 1 ∧ l₂.length ≤ 1 ∧
        (∀ k ∈ l₁, k.start = j.start ∧ k.stop = b) ∧
        (∀ k ∈ l₂, k.start = b ∧ k.stop = j.stop)) ∨
    forward d eps ms j = (none, []) := by
  unfold forward
  split
  · exact .inr rfl
  · simp only
    cases hb : (scan d j.start j.stop j.mse).best with
    | none => exact .inr rfl
    | some b =>
      refine .inl ⟨b, _, rfl, (scan_best hb).1, (scan_best hb).2, _, _, rfl, ?_, ?_, ?_, ?_⟩
      · split <;> simp
      · split <;> simp
      · split <;> simp
      · split <;> simp

theorem mem_push {p q : ℕ} : ∀ {h : List ℕ}, q ∈ push p h ↔ q = p ∨ q ∈ h
  | [] => by simp [push]
  | r :: h => by
    unfold push
    split
    · simp
    · simp only [List.mem_cons, mem_push (h := h)]
      tauto

theorem push_sorted {p : ℕ} : ∀ {h : List ℕ}, h.Pairwise (· > ·) → p ∉ h →
    (push p h).Pairwise (· > ·)
  | [], _, _ => by simp [push]
  | q :: h, hs, hp => by
    unfold push
    rw [List.pairwise_cons] at hs
    simp only [List.mem_cons, not_or] at hp
    split
    · rename_i hpq
      rw [List.pairwise_cons, List.pairwise_cons]
      refine ⟨?_, hs.1, hs.2⟩
      intro r hr
      rcases List.mem_cons.1 hr with rfl | hr
      · omega
      · have := hs.1 r hr; omega
    · rename_i hpq
      rw [List.pairwise_cons]
      refine ⟨?_, push_sorted hs.2 hp.2⟩
      intro r hr
      rcases mem_push.1 hr with rfl | hr
      · omega
      · exact hs.1 r hr

/-- The invariant of the loop over `_queue`. -/
structure Inv (n : ℕ) (queue : List Job) (heap : List ℕ) : Prop where
  sorted : heap.Pairwise (· > ·)
  zero : 0 ∈ heap
  last : n - 1 ∈ heap
  bound : ∀ p ∈ heap, p ≤ n - 1
  jobs : ∀ j ∈ queue, j.start < j.stop ∧ j.stop ≤ n - 1
  free : ∀ j ∈ queue, ∀ p ∈ heap, p ≤ j.start ∨ j.stop ≤ p
  apart : queue.Pairwise (fun j k => j.stop ≤ k.start ∨ k.stop ≤ j.start)

theorem Inv.tail {n : ℕ} {j : Job} {queue : List Job} {heap : List ℕ} (h : Inv n (j :: queue) heap) :
    Inv n queue heap :=
  { sorted := h.sorted, zero := h.zero, last := h.last, bound := h.bound,
    jobs := fun k hk => h.jobs k (by simp [hk]),
    free := fun k hk => h.free k (by simp [hk]),
    apart := (List.pairwise_cons.1 h.apart).2 }

theorem Inv.split {n : ℕ} {j : Job} {queue : List Job} {heap : List ℕ} (h : Inv n (j :: queue) heap)
    {b : ℕ} (h1 : j.start < b) (h2 : b < j.stop) {l₁ l₂ : List Job}
    (hl1 : l₁.length ≤ 1) (hl2 : l₂.length ≤ 1)
    (m1 : ∀ k ∈ l₁, k.start = j.start ∧ k.stop = b)
    (m2 : ∀ k ∈ l₂, k.start = b ∧ k.stop = j.stop) :
    Inv n (queue ++ (l₁ ++ l₂)) (push b heap) := by
  have hj := h.jobs j (by simp)
  have hfree := h.free j (by simp)
  have hap := (List.pairwise_cons.1 h.apart)
  refine ⟨push_sorted h.sorted ?_, mem_push.2 (.inr h.zero), mem_push.2 (.inr h.last), ?_, ?_, ?_, ?_⟩
  · intro hb
    have := hfree b hb
    omega
  · intro p hp
    rcases mem_push.1 hp with rfl | hp
    · omega
    · exact h.bound p hp
  · intro k hk
    simp only [List.mem_append] at hk
    rcases hk with hk | hk | hk
    · exact h.jobs k (by simp [hk])
    · have := m1 k hk; omega
    · have := m2 k hk; omega
  · intro k hk p hp
    simp only [List.mem_append] at hk
    rcases hk with hk | hk | hk
    · have hk' := hap.1 k hk
      rcases mem_push.1 hp with rfl | hp
      · omega
      · exact h.free k (by simp [hk]) p hp
    · have := m1 k hk
      rcases mem_push.1 hp with rfl | hp
      · omega
      · have := hfree p hp; omega
    · have := m2 k hk
      rcases mem_push.1 hp with rfl | hp
      · omega
      · have := hfree p hp; omega
  · rw [List.pairwise_append, List.pairwise_append]
    refine ⟨hap.2, ⟨?_, ?_, ?_⟩, ?_⟩
    · match l₁, hl1 with
      | [], _ => simp
      | [_], _ => simp
    · match l₂, hl2 with
      | [], _ => simp
      | [_], _ => simp
    · intro k hk k' hk'
      have := m1 k hk
      have := m2 k' hk'
      omega
    · intro k hk k' hk'
      have hk1 := hap.1 k hk
      rcases List.mem_append.1 hk' with hk' | hk'
      · have := m1 k' hk'; omega
      · have := m2 k' hk'; omega

/-- The measure that bounds the number of rounds. -/
def work (queue : List Job) : ℕ := (queue.map (fun j => 2 * (j.stop - j.start) - 1)).sum

theorem loop_spec {n : ℕ} : ∀ (fuel : ℕ) (queue : List Job) (heap : List ℕ),
    Inv n queue heap → work queue ≤ fuel →
    ∃ heap', loop d eps ms fuel queue heap = some heap' ∧ Inv n [] heap'
  | 0, [], heap, h, _ => ⟨heap, rfl, h⟩
  | _ + 1, [], heap, h, _ => ⟨heap, rfl, h⟩
  | 0, j :: queue, heap, h, hw => by
    have := h.jobs j (by simp)
    simp only [work, List.map_cons, List.sum_cons] at hw
    omega
  | fuel + 1, j :: queue, heap, h, hw => by
    have hj := h.jobs j (by simp)
    simp only [work, List.map_cons, List.sum_cons] at hw
    rcases forward_spec (d := d) (eps := eps) (ms := ms) j with
      ⟨b, js, hf, h1, h2, l₁, l₂, rfl, hl1, hl2, m1, m2⟩ | hf
    · simp only [loop, hf]
      refine loop_spec fuel _ _ (h.split h1 h2 hl1 hl2 m1 m2) ?_
      have e1 : (l₁.map (fun j : Job => 2 * (j.stop - j.start) - 1)).sum ≤
          2 * (b - j.start) - 1 := by
        match l₁, hl1, m1 with
        | [], _, _ => simp
        | [k], _, m1 => have := m1 k (by simp); simp [this.1, this.2]
      have e2 : (l₂.map (fun j : Job => 2 * (j.stop - j.start) - 1)).sum ≤
          2 * (j.stop - b) - 1 := by
        match l₂, hl2, m2 with
        | [], _, _ => simp
        | [k], _, m2 => have := m2 k (by simp); simp [this.1, this.2]
      simp only [work, List.map_append, List.sum_append]
      omega
    · simp only [loop, hf, List.append_nil]
      refine loop_spec fuel _ _ h.tail ?_
      simp only [work]
      omega

/-- What `_backward` leaves: an increasing list from the smallest to the largest point. -/
theorem backLoop_spec : ∀ (heap : List ℕ) (pos front : ℕ) (pts : List ℕ), heap ≠ [] →
    heap.Pairwise (· > ·) → (∀ p ∈ heap, p < front) → (front :: pts).Pairwise (· < ·) →
    (backLoop d eps heap pos front pts).Pairwise (· < ·) ∧
    (backLoop d eps heap pos front pts).head? = heap.getLast? ∧
    (backLoop d eps heap pos front pts).getLast? = (front :: pts).getLast? ∧
    ∀ p ∈ backLoop d eps heap pos front pts, p ∈ heap ∨ p = front ∨ p ∈ pts
  | [], _, _, _, h, _, _, _ => absurd rfl h
  | [p], _, front, pts, _, _, hf, hp => by
    have := hf p (by simp)
    simp only [backLoop]
    refine ⟨?_, by simp, by simp, by simp⟩
    rw [List.pairwise_cons]
    refine ⟨?_, hp⟩
    intro q hq
    rcases List.mem_cons.1 hq with rfl | hq
    · exact this
    · exact this.trans ((List.pairwise_cons.1 hp).1 q hq)
  | p :: top :: heap, pos, front, pts, _, hs, hf, hp => by
    have hs' := List.pairwise_cons.1 hs
    have hpf := hf p (by simp)
    rw [backLoop]
    split
    · have := backLoop_spec (top :: heap) p p (front :: pts) (by simp) hs'.2 hs'.1 (by
        rw [List.pairwise_cons]
        refine ⟨?_, hp⟩
        intro q hq
        rcases List.mem_cons.1 hq with rfl | hq
        · exact hpf
        · exact hpf.trans ((List.pairwise_cons.1 hp).1 q hq))
      refine ⟨this.1, by rw [this.2.1]; simp, by rw [this.2.2.1]; simp, ?_⟩
      intro q hq
      have := this.2.2.2 q hq
      simp only [List.mem_cons] at this ⊢
      tauto
    · have := backLoop_spec (top :: heap) pos front pts (by simp) hs'.2
        (fun q hq => hf q (by simp [List.mem_cons.1 hq])) hp
      refine ⟨this.1, by rw [this.2.1]; simp, this.2.2.1, ?_⟩
      intro q hq
      have := this.2.2.2 q hq
      simp only [List.mem_cons] at this ⊢
      tauto

theorem fit_spec (hn : 2 ≤ d.n) : ∃ pts, fit d eps ms = some pts ∧ pts.Pairwise (· < ·) ∧
    pts.head? = some 0 ∧ pts.getLast? = some (d.n - 1) := by
  have hinv : Inv d.n [⟨0, d.n - 1, -1, 0⟩] (push (d.n - 1) (push 0 [])) := by
    have e : push (d.n - 1) (push 0 []) = [d.n - 1, 0] := by
      simp [push]
    rw [e]
    refine ⟨?_, by simp, by simp, ?_, ?_, ?_, by simp⟩
    · simp only [List.pairwise_cons, List.mem_singleton, forall_eq]
      refine ⟨by omega, by simp, by simp⟩
    · intro p hp; simp at hp; omega
    · intro j hj; simp only [List.mem_singleton] at hj; subst hj; simp only; omega
    · intro j hj p hp; simp only [List.mem_singleton] at hj; subst hj; simp at hp ⊢; omega
  obtain ⟨heap, hl, hi⟩ := loop_spec (d := d) (eps := eps * eps) (ms := ms) (2 * d.n) _ _ hinv (by
    simp only [work, List.map_cons, List.map_nil, List.sum_cons, List.sum_nil]; omega)
  have hne : 0 ≠ d.n - 1 := by omega
  have h0 := hi.zero
  have hl' := hi.last
  have hs := hi.sorted
  have hb := hi.bound
  obtain ⟨a, p, rest, rfl⟩ : ∃ a p rest, heap = a :: p :: rest := by
    match heap, h0, hl' with
    | [a], h0, hl' => simp at h0 hl'; omega
    | a :: p :: rest, _, _ => exact ⟨a, p, rest, rfl⟩
  have hs' := List.pairwise_cons.1 hs
  have ha : a = d.n - 1 := by
    have h1 := hb a (by simp)
    rcases List.mem_cons.1 hl' with h | h
    · exact h.symm
    · have := hs'.1 _ h; omega
  have hlast : (p :: rest).getLast? = some 0 := by
    have h0' : 0 ∈ p :: rest := by
      rcases List.mem_cons.1 h0 with h | h
      · omega
      · exact h
    have hg := List.getLast?_eq_some_getLast (l := p :: rest) (by simp)
    rw [hg]
    have hsorted := hs'.2
    have : ∀ (l : List ℕ) (hl : l ≠ []), l.Pairwise (· > ·) → 0 ∈ l → l.getLast hl = 0 := by
      intro l hl hpw h0
      obtain ⟨i, hi, hi'⟩ := List.getElem_of_mem h0
      by_contra hc
      rw [List.getLast_eq_getElem] at hc
      by_cases hil : i = l.length - 1
      · subst hil; exact hc hi'
      · have := List.pairwise_iff_getElem.1 hpw i (l.length - 1) hi (by omega) (by omega)
        omega
    rw [this _ _ hsorted h0']
  have hspec := backLoop_spec (d := d) (eps := eps * eps) (p :: rest) p a [] (by simp) hs'.2 hs'.1
    (by simp)
  refine ⟨backLoop d (eps * eps) (p :: rest) p a [], ?_, hspec.1, ?_, ?_⟩
  · have : d.n > 1 := hn
    simp only [fit, this, if_true, hl, backward]
    rfl
  · rw [hspec.2.1, hlast]
  · rw [hspec.2.2.1, ha]; rfl

end Verif.Num.Reg
