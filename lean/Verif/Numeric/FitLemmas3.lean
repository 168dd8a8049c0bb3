import Verif.Numeric.FitLemmas2

/-! # Fitting -/

namespace Verif.Num

open Iv Iv.FP Fun

theorem countP_perm_rank {s t : List ℤ} (h : s.Perm t) (x : ℤ) : rank s x = rank t x := by
  unfold rank
  rw [h.countP_eq, h.length_eq]

theorem rank_lt {s : List ℤ} {a b : ℤ} (hb : b ∈ s) (hab : a < b) (h2 : 2 ≤ s.length) :
    rank s a < rank s b := by
  have h1 : s.countP (fun v => decide (v ≤ a)) < s.countP (fun v => decide (v ≤ b)) := by
    induction s with
    | nil => simp at hb
    | cons c s ih =>
      have hle : s.countP (fun v => decide (v ≤ a)) ≤ s.countP (fun v => decide (v ≤ b)) :=
        List.countP_mono_left (fun v _ hv => by simp at hv ⊢; omega)
      simp only [List.countP_cons]
      by_cases hbs : b ∈ s
      · by_cases hl : 2 ≤ s.length
        · have := ih hbs hl
          split_ifs <;> simp_all <;> omega
        · obtain ⟨d, rfl⟩ : ∃ d, s = [d] := by
            match s, hbs, hl with
            | [d], _, _ => exact ⟨d, rfl⟩
            | _ :: _ :: _, _, hl => simp at hl
          simp at hbs; subst hbs
          simp only [List.countP_cons, List.countP_nil]
          split_ifs <;> simp_all <;> omega
      · have : b = c := by simpa [hbs] using hb
        subst this
        split_ifs <;> simp_all <;> omega
  have h3 : (0 : ℚ) < (s.length : ℚ) - 1 := by
    have : (2 : ℚ) ≤ s.length := by exact_mod_cast h2
    linarith
  have h4 : (s.countP (fun v => decide (v ≤ a)) : ℚ) < s.countP (fun v => decide (v ≤ b)) := by
    exact_mod_cast h1
  unfold rank
  exact div_lt_div_of_pos_right (by linarith) h3

theorem rank_nonneg {s : List ℤ} {a : ℤ} (ha : a ∈ s) (h2 : 2 ≤ s.length) : 0 ≤ rank s a := by
  have h1 : 0 < s.countP (fun v => decide (v ≤ a)) :=
    List.countP_pos_iff.2 ⟨a, ha, by simp⟩
  have h3 : (0 : ℚ) < (s.length : ℚ) - 1 := by
    have : (2 : ℚ) ≤ s.length := by exact_mod_cast h2
    linarith
  have h4 : (1 : ℚ) ≤ s.countP (fun v => decide (v ≤ a)) := by exact_mod_cast h1
  exact div_nonneg (by linarith) h3.le

theorem rank_max {s : List ℤ} {a : ℤ} (ha : ∀ x ∈ s, x ≤ a) (h2 : 2 ≤ s.length) : rank s a = 1 := by
  have h1 : s.countP (fun v => decide (v ≤ a)) = s.length :=
    List.countP_eq_length.2 (fun x hx => by simp [ha x hx])
  have h3 : (s.length : ℚ) - 1 ≠ 0 := by
    have : (2 : ℚ) ≤ s.length := by exact_mod_cast h2
    intro h; linarith
  unfold rank
  rw [h1, div_self h3]

theorem length_two {s : List ℤ} {a b : ℤ} (ha : a ∈ s) (hb : b ∈ s) (h : a ≠ b) : 2 ≤ s.length := by
  match s, ha, hb with
  | [c], ha, hb => simp at ha hb; omega
  | _ :: _ :: _, _, _ => simp

/-- What fitting a sample with at least two different values gives. -/
theorem fit_spec {val : ℤ → ℚ} (hval : StrictMono val) {eps : ℚ} {data s : List ℤ}
    {l r : Option ℤ} (hs : loadBuffer data l r = .ok s) {lo hi : ℤ} (hlo : lo ∈ s) (hhi : hi ∈ s)
    (hlt : lo < hi) (hmin : ∀ x ∈ s, lo ≤ x) (hmax : ∀ x ∈ s, x ≤ hi) :
    ∃ (pts : List (ℤ × ℚ)) (p : PF) (F : ℤ → ℚ), fit val eps data l r = .ok p ∧
      p = tile ninf (.const 0) (segs val pts ++ [(hi + 1, .const 1)]) pinf ∧
      (∀ n, p.eval val n = .ok (some (F n))) ∧ Through val pts F ∧ Rising pts ∧ 2 ≤ pts.length ∧
      pts.head? = some (lo, rank s lo) ∧ pts.getLast? = some (hi, 1) ∧
      (∀ q ∈ pts, q.1 ∈ s ∧ q.2 = rank s q.1) := by
  have h2 := length_two hlo hhi (by omega)
  set t := s.insertionSort (· ≤ ·) with ht
  have hperm : t.Perm s := List.perm_insertionSort _ _
  have hsorted : t.Pairwise (· ≤ ·) := List.pairwise_insertionSort _ _
  obtain ⟨hinc, hrank, hmem⟩ := ranks_spec hsorted
  set b := ranks t with hb
  have hmem' : ∀ v, v ∈ s ↔ ∃ k, k < b.count ∧ b.x k = v := fun v => by
    rw [← hmem, hperm.mem_iff]
  have hrank' : ∀ k, k < b.count → b.y k = rank s (b.x k) := by
    intro k hk
    rw [hrank k hk, ← countP_perm_rank hperm]; rfl
  obtain ⟨k0, hk0, e0⟩ := (hmem' lo).1 hlo
  obtain ⟨k1, hk1, e1⟩ := (hmem' hi).1 hhi
  have hinc' : ∀ i j, i < b.count → j < b.count → (b.x i < b.x j ↔ i < j) := by
    intro i j hi hj
    constructor
    · intro h
      by_contra hc
      rcases Nat.lt_or_eq_of_le (Nat.le_of_not_lt hc) with h' | h'
      · have := hinc j i h' hi; omega
      · subst h'; omega
    · intro h; exact hinc i j h hj
  have hk01 : k0 < k1 := (hinc' k0 k1 hk0 hk1).1 (by omega)
  have hcount : b.count > 1 := by omega
  have hx0 : b.x 0 = lo := by
    have h1 := hmin (b.x 0) ((hmem' _).2 ⟨0, by omega, rfl⟩)
    rcases Nat.eq_zero_or_pos k0 with h | h
    · rw [← e0, h]
    · have := hinc 0 k0 h hk0; omega
  have hxl : b.x (b.count - 1) = hi := by
    have h1 := hmax (b.x (b.count - 1)) ((hmem' _).2 ⟨b.count - 1, by omega, rfl⟩)
    rcases Nat.lt_or_eq_of_le (show k1 ≤ b.count - 1 by omega) with h | h
    · have := hinc k1 (b.count - 1) h (by omega); omega
    · rw [← h, e1]
  obtain ⟨idx, hfit, hpw, hhead, hlast⟩ := Reg.fit_spec
    (d := ⟨b.count, fun i => val (b.x i), b.y⟩) (eps := eps) (ms := none) (show 2 ≤ b.count by omega)
  have hidx : ∀ i ∈ idx, i < b.count := by
    intro i hi
    obtain ⟨l', e⟩ := List.getLast?_eq_some_iff.1 hlast
    rw [e] at hi hpw
    rcases List.mem_append.1 hi with hi | hi
    · have := (List.pairwise_append.1 hpw).2.2 i hi (b.count - 1) (by simp)
      omega
    · simp at hi; omega
  set pts := idx.map (fun i => (b.x i, b.y i)) with hpts
  have hrise : Rising pts := by
    rw [hpts, Rising, List.pairwise_map]
    refine hpw.imp_of_mem ?_
    intro i j hi hj hij
    have hx := hinc i j hij (hidx j hj)
    refine ⟨hx, ?_⟩
    simp only
    rw [hrank' i (hidx i hi), hrank' j (hidx j hj)]
    exact rank_lt ((hmem' _).2 ⟨j, hidx j hj, rfl⟩) hx h2
  have hhead' : pts.head? = some (lo, rank s lo) := by
    rw [hpts, List.head?_map, hhead]
    simp only [Option.map_some]
    rw [hrank' 0 (by omega), hx0]
  have hlast' : pts.getLast? = some (hi, 1) := by
    rw [hpts, List.getLast?_map, hlast]
    simp only [Option.map_some]
    rw [hrank' (b.count - 1) (by omega), hxl, rank_max hmax h2]
  have hlen : 2 ≤ pts.length := by
    match h : pts, hhead', hlast' with
    | [p], h1, h3 => simp at h1 h3; rw [h1] at h3; simp at h3; omega
    | _ :: _ :: _, _, _ => simp
  obtain ⟨p, F, hp, hlen1, hshape, heval, hthr⟩ := cdfThrough_spec hval hlen hrise hlast' rfl
  refine ⟨pts, p, F, ?_, hshape, heval, hthr, hrise, hlen, hhead', hlast', ?_⟩
  · unfold fit
    simp only [hs, bind, Except.bind]
    rw [← ht, ← hb, if_pos hcount, hfit]
    simp only
    rw [← hpts, hp]
    simp only [assertConsistency, hlen1, if_true]
  · intro q hq
    rw [hpts] at hq
    obtain ⟨i, hi, rfl⟩ := List.mem_map.1 hq
    exact ⟨(hmem' _).2 ⟨i, hidx i hi, rfl⟩, hrank' i (hidx i hi)⟩

/-- A sample with a single value. -/
theorem fit_single {val : ℤ → ℚ} {eps : ℚ} {data s : List ℤ} {l r : Option ℤ}
    (hs : loadBuffer data l r = .ok s) {x : ℤ} (hx : x ∈ s) (hall : ∀ y ∈ s, y = x) :
    fit val eps data l r = .ok (jumpCdf x) := by
  set t := s.insertionSort (· ≤ ·) with ht
  have hperm : t.Perm s := List.perm_insertionSort _ _
  have hsorted : t.Pairwise (· ≤ ·) := List.pairwise_insertionSort _ _
  obtain ⟨hinc, hrank, hmem⟩ := ranks_spec hsorted
  set b := ranks t with hb
  have hmem' : ∀ v, v ∈ s ↔ ∃ k, k < b.count ∧ b.x k = v := fun v => by
    rw [← hmem, hperm.mem_iff]
  obtain ⟨k, hk, e⟩ := (hmem' x).1 hx
  have hx0 : b.x 0 = x := hall _ ((hmem' _).2 ⟨0, by omega, rfl⟩)
  have hc : b.count = 1 := by
    by_contra hc
    have h1 := hinc 0 1 (by omega) (by omega)
    have h2 := hall _ ((hmem' _).2 ⟨1, by omega, rfl⟩)
    omega
  unfold fit
  simp only [hs, bind, Except.bind]
  rw [← ht, ← hb, if_neg (by omega), if_pos hc, hx0]
  simp [assertConsistency, jumpCdf]

theorem fit_empty {val : ℤ → ℚ} {eps : ℚ} : fit val eps [] none none = .error .indexError := by
  simp [fit, loadBuffer, bind, Except.bind, ranks]

theorem loadBuffer_ok {data : List ℤ} {l r : Option ℤ} (h1 : ∀ v ∈ l, ∀ x ∈ data, v < x)
    (h2 : ∀ v ∈ r, ∀ x ∈ data, x < v) :
    loadBuffer data l r = .ok (l.toList ++ data ++ r.toList) := by
  unfold loadBuffer
  rw [if_neg]
  rintro (⟨x, hx, v, hv, h⟩ | ⟨x, hx, v, hv, h⟩)
  · exact h (h1 v hv x hx)
  · exact h (h2 v hv x hx)

end Verif.Num
