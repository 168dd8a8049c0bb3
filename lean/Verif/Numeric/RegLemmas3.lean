import Verif.Numeric.RegLemmas
import Verif.Numeric.RegLemmas2

/-!
# The error that the simplification of a CDF leaves
-/

namespace Verif.Num.Reg

variable {d : Pts} {E : ℚ}

/-- Nothing between. -/
def Next (heap : List ℕ) (a b : ℕ) : Prop := a ∈ heap ∧ b ∈ heap ∧ a < b ∧ ∀ p ∈ heap, p ≤ a ∨ b ≤ p

/-- The piece between two support points is not split further: there is nothing to split, the mean squared deviation is
below the tolerance, or no split reduces the deviation. -/
def Settled (d : Pts) (E : ℚ) (a b : ℕ) : Prop :=
  b ≤ a + 1 ∨ d.sq a b / ((b : ℚ) - a) < E ∨ ∀ k, a < k → k < b → d.sq a b ≤ d.sq a k + d.sq k b

/-- The invariant of the loop over `_queue`: every piece is settled or has a job. -/
structure Cov (d : Pts) (E : ℚ) (queue : List Job) (heap : List ℕ) : Prop where
  ends : ∀ j ∈ queue, Next heap j.start j.stop
  mse : ∀ j ∈ queue, j.mse < 0 ∨ j.mse = d.sq j.start j.stop / ((j.stop : ℚ) - j.start)
  cover : ∀ a b, Next heap a b → (∃ j ∈ queue, j.start = a ∧ j.stop = b) ∨ Settled d E a b

/-- One round. -/
theorem Cov.step {n : ℕ} {j : Job} {queue : List Job} {heap : List ℕ} (hx : ∀ i k, i < k → k < n → d.x i < d.x k)
    (hn : ∀ p ∈ heap, p < n) (h : Cov d E (j :: queue) heap)
    (hap : ∀ k ∈ queue, ¬ (k.start = j.start ∧ k.stop = j.stop)) :
    Cov d E (queue ++ (forward d E none j).2)
      (match (forward d E none j).1 with | some b => push b heap | none => heap) := by
  obtain ⟨hja, hjb, hjlt, hjn⟩ := h.ends j (by simp)
  have hxj : ∀ i k, j.start ≤ i → i < k → k ≤ j.stop → d.x i < d.x k :=
    fun i k _ h1 h2 => hx i k h1 (lt_of_le_of_lt h2 (hn _ hjb))
  by_cases h2 : j.stop - j.start < 2
  · have hf : forward d E none j = (none, []) := by
      unfold forward
      rw [if_pos (Or.inl h2)]
    rw [hf]
    simp only [List.append_nil]
    refine ⟨fun k hk => h.ends k (by simp [hk]), fun k hk => h.mse k (by simp [hk]), fun a b hab => ?_⟩
    rcases h.cover a b hab with ⟨k, hk, hka, hkb⟩ | hs
    · rcases List.mem_cons.1 hk with rfl | hk
      · exact Or.inr (Or.inl (by omega))
      · exact Or.inl ⟨k, hk, hka, hkb⟩
    · exact Or.inr hs
  · have inv := scan_inv (d := d) (mse := j.mse) hjlt hxj
    have hcond : ¬ (j.stop - j.start < 2 ∨ ∃ m ∈ (none : Option ℕ), 0 < m ∧ m ≤ j.depth) := by
      simp
      omega
    have hq : (0 : ℚ) < (j.stop : ℚ) - j.start := by
      have : (j.start : ℚ) < j.stop := by exact_mod_cast hjlt
      linarith
    cases hb : (scan d j.start j.stop j.mse).best with
    | none =>
      have hf : forward d E none j = (none, []) := by
        unfold forward
        rw [if_neg hcond]
        simp only [hb]
      rw [hf]
      simp only [List.append_nil]
      refine ⟨fun k hk => h.ends k (by simp [hk]), fun k hk => h.mse k (by simp [hk]), fun a b hab => ?_⟩
      rcases h.cover a b hab with ⟨k, hk, hka, hkb⟩ | hs
      · rcases List.mem_cons.1 hk with rfl | hk
        · subst hka hkb
          refine Or.inr (Or.inr (Or.inr fun m hm1 hm2 => ?_))
          have hm := (inv.none_case hb).2 m hm1 hm2
          rcases h.mse k (by simp) with h0 | h0
          · exact absurd h0 (not_lt.2 hm.1)
          · rw [h0] at hm
            unfold crit at hm
            exact (div_le_div_iff_of_pos_right hq).1 hm.2
        · exact Or.inl ⟨k, hk, hka, hkb⟩
      · exact Or.inr hs
    | some b =>
      obtain ⟨hb1, hb2, -, hm1, hm2, -⟩ := inv.some_case b hb
      have hf : forward d E none j = (some b,
          (if d.sq j.start b / ((b : ℚ) - j.start) ≥ E then
            [⟨j.start, b, d.sq j.start b / ((b : ℚ) - j.start), j.depth + 1⟩] else []) ++
          (if d.sq b j.stop / ((j.stop : ℚ) - b) ≥ E then
            [⟨b, j.stop, d.sq b j.stop / ((j.stop : ℚ) - b), j.depth + 1⟩] else [])) := by
        unfold forward
        rw [if_neg hcond]
        simp only [hb, hm1, hm2]
      rw [hf]
      simp only
      have hl1 : ∀ k ∈ (if d.sq j.start b / ((b : ℚ) - j.start) ≥ E then
            [(⟨j.start, b, d.sq j.start b / ((b : ℚ) - j.start), j.depth + 1⟩ : Job)] else []),
          k.start = j.start ∧ k.stop = b ∧ k.mse = d.sq j.start b / ((b : ℚ) - j.start) := by
        intro k hk
        split at hk
        · rw [List.mem_singleton] at hk
          subst hk
          exact ⟨rfl, rfl, rfl⟩
        · cases hk
      have hl2 : ∀ k ∈ (if d.sq b j.stop / ((j.stop : ℚ) - b) ≥ E then
            [(⟨b, j.stop, d.sq b j.stop / ((j.stop : ℚ) - b), j.depth + 1⟩ : Job)] else []),
          k.start = b ∧ k.stop = j.stop ∧ k.mse = d.sq b j.stop / ((j.stop : ℚ) - b) := by
        intro k hk
        split at hk
        · rw [List.mem_singleton] at hk
          subst hk
          exact ⟨rfl, rfl, rfl⟩
        · cases hk
      have n1 : Next (push b heap) j.start b := by
        refine ⟨mem_push.2 (Or.inr hja), mem_push.2 (Or.inl rfl), hb1, fun p hp => ?_⟩
        rcases mem_push.1 hp with rfl | hp
        · exact Or.inr le_rfl
        · rcases hjn p hp with h' | h'
          · exact Or.inl h'
          · exact Or.inr (by omega)
      have n2 : Next (push b heap) b j.stop := by
        refine ⟨mem_push.2 (Or.inl rfl), mem_push.2 (Or.inr hjb), hb2, fun p hp => ?_⟩
        rcases mem_push.1 hp with rfl | hp
        · exact Or.inl le_rfl
        · rcases hjn p hp with h' | h'
          · exact Or.inl (by omega)
          · exact Or.inr h'
      have nold : ∀ a c, Next heap a c → ¬ (a = j.start ∧ c = j.stop) → Next (push b heap) a c := by
        rintro a c ⟨ha, hc, hac, hbet⟩ hne
        refine ⟨mem_push.2 (Or.inr ha), mem_push.2 (Or.inr hc), hac, fun p hp => ?_⟩
        rcases mem_push.1 hp with rfl | hp
        · have e1 := hjn a ha
          have e2 := hjn c hc
          have e3 := hbet _ hja
          have e4 := hbet _ hjb
          by_contra hcon
          push Not at hcon
          exact hne ⟨by omega, by omega⟩
        · exact hbet p hp
      refine ⟨?_, ?_, ?_⟩
      · intro k hk
        rcases List.mem_append.1 hk with hk | hk
        · refine nold _ _ (h.ends k (by simp [hk])) (hap k hk)
        · rcases List.mem_append.1 hk with hk | hk
          · obtain ⟨e1, e2, -⟩ := hl1 k hk
            rw [e1, e2]
            exact n1
          · obtain ⟨e1, e2, -⟩ := hl2 k hk
            rw [e1, e2]
            exact n2
      · intro k hk
        rcases List.mem_append.1 hk with hk | hk
        · exact h.mse k (by simp [hk])
        · rcases List.mem_append.1 hk with hk | hk
          · obtain ⟨e1, e2, e3⟩ := hl1 k hk
            rw [e1, e2, e3]
            exact Or.inr rfl
          · obtain ⟨e1, e2, e3⟩ := hl2 k hk
            rw [e1, e2, e3]
            exact Or.inr rfl
      · rintro a c ⟨ha, hc, hac, hbet⟩
        by_cases hab : a = b
        · -- to the right of the split
          have hcs : c = j.stop := by
            have e1 := hbet j.stop (mem_push.2 (Or.inr hjb))
            rcases mem_push.1 hc with h' | h'
            · omega
            · have e2 := hjn c h'
              omega
          subst hab hcs
          by_cases hE : d.sq a j.stop / ((j.stop : ℚ) - a) ≥ E
          · left
            refine ⟨⟨a, j.stop, d.sq a j.stop / ((j.stop : ℚ) - a), j.depth + 1⟩, ?_, rfl, rfl⟩
            rw [if_pos hE]
            simp
          · exact Or.inr (Or.inr (Or.inl (not_le.1 hE)))
        · by_cases hcb : c = b
          · have hcs : a = j.start := by
              have e1 := hbet j.start (mem_push.2 (Or.inr hja))
              rcases mem_push.1 ha with h' | h'
              · omega
              · have e2 := hjn a h'
                omega
            subst hcb hcs
            by_cases hE : d.sq j.start c / ((c : ℚ) - j.start) ≥ E
            · left
              refine ⟨⟨j.start, c, d.sq j.start c / ((c : ℚ) - j.start), j.depth + 1⟩, ?_, rfl, rfl⟩
              rw [if_pos hE]
              simp
            · exact Or.inr (Or.inr (Or.inl (not_le.1 hE)))
          · have ha' : a ∈ heap := (mem_push.1 ha).resolve_left hab
            have hc' : c ∈ heap := (mem_push.1 hc).resolve_left hcb
            have hold : Next heap a c := ⟨ha', hc', hac, fun p hp => hbet p (mem_push.2 (Or.inr hp))⟩
            rcases h.cover a c hold with ⟨k, hk, hka, hkc⟩ | hs
            · rcases List.mem_cons.1 hk with rfl | hk
              · have := hbet b (mem_push.2 (Or.inl rfl))
                omega
              · exact Or.inl ⟨k, by simp [hk], hka, hkc⟩
            · exact Or.inr hs

/-- After the loop every piece is settled. -/
theorem loop_cov {n : ℕ} (hx : ∀ i k, i < k → k < n → d.x i < d.x k) (hn : 0 < n) :
    ∀ (fuel : ℕ) (queue : List Job) (heap heap' : List ℕ), Inv n queue heap → Cov d E queue heap →
      loop d E none fuel queue heap = some heap' → ∀ a b, Next heap' a b → Settled d E a b := by
  intro fuel
  induction fuel with
  | zero =>
    intro queue heap heap' hi hc h a b hab
    cases queue with
    | nil =>
      simp only [loop, Option.some.injEq] at h
      subst h
      rcases hc.cover a b hab with ⟨k, hk, -⟩ | hs
      · cases hk
      · exact hs
    | cons j queue => simp [loop] at h
  | succ fuel ih =>
    intro queue heap heap' hi hc h a b hab
    cases queue with
    | nil =>
      simp only [loop, Option.some.injEq] at h
      subst h
      rcases hc.cover a b hab with ⟨k, hk, -⟩ | hs
      · cases hk
      · exact hs
    | cons j queue =>
      have hj := hi.jobs j (by simp)
      have hcov := hc.step hx (fun p hp => by have := hi.bound p hp; omega) (by
        rintro k hk ⟨h1, h2⟩
        have := (List.pairwise_cons.1 hi.apart).1 k hk
        omega)
      rcases forward_spec (d := d) (eps := E) (ms := none) j with
        ⟨b', js, hf, h1, h2, l₁, l₂, rfl, hl1, hl2, m1, m2⟩ | hf
      · simp only [loop, hf] at h
        rw [hf] at hcov
        exact ih _ _ _ (hi.split h1 h2 hl1 hl2 m1 m2) hcov h a b hab
      · simp only [loop, hf, List.append_nil] at h
        rw [hf] at hcov
        simp only [List.append_nil] at hcov
        exact ih _ _ _ hi.tail hcov h a b hab

/-- The squared deviations of the points `a, …, e` from the line through `a` and `b`, summed by `_backward`. -/
theorem sqErr_eq (d : Pts) (a b e : ℕ) :
    sqErr d ((d.y b - d.y a) / (d.x b - d.x a)) (d.y a - (d.y b - d.y a) / (d.x b - d.x a) * d.x a) a e
      = (Finset.Icc a e).sum (fun i => (d.y i - d.chord a b i) ^ 2) := by
  have : (Finset.Icc a e).sum (fun i => (d.y i - d.chord a b i) ^ 2)
      = ((List.range' a (e + 1 - a)).map (fun i => (d.y i - d.chord a b i) ^ 2)).sum := rfl
  rw [this]
  unfold sqErr
  congr 1
  apply List.map_congr_left
  intro i _
  unfold Pts.chord
  ring

/-- The mean squared deviation of the points `a, …, e` from the line through `a` and `b` is below the tolerance. -/
def Small (d : Pts) (E : ℚ) (a b e : ℕ) : Prop :=
  (Finset.Icc a e).sum (fun i => (d.y i - d.chord a b i) ^ 2) / ((e : ℚ) - a + 1) < E

/-- What `_backward` leaves: pieces that were there before, and pieces with a small error. -/
theorem backLoop_err : ∀ (heap : List ℕ) (pos front : ℕ) (pts : List ℕ) (p : ℕ), heap.head? = some p →
    heap.Pairwise (· > ·) → ∃ L x, backLoop d E heap pos front pts = (L ++ [x]) ++ front :: pts ∧
      (∀ q ∈ L ++ [x], q ∈ heap) ∧ (x = p ∨ Small d E x front pos) ∧
      (L ++ [x]).IsChain (fun a b => Next heap a b ∨ Small d E a b b)
  | [], _, _, _, _, h, _ => by cases h
  | [q], pos, front, pts, p, h, _ => by
    simp only [List.head?_cons, Option.some.injEq] at h
    subst h
    exact ⟨[], q, by simp [backLoop], by simp, Or.inl rfl, by simp⟩
  | q :: top :: heap, pos, front, pts, p, h, hs => by
    simp only [List.head?_cons, Option.some.injEq] at h
    subst h
    have hs' := List.pairwise_cons.1 hs
    have mono : ∀ a b, Next (top :: heap) a b ∨ Small d E a b b → Next (q :: top :: heap) a b ∨ Small d E a b b := by
      rintro a b (⟨h1, h2, h3, h4⟩ | h)
      · refine Or.inl ⟨by simp [List.mem_cons.1 h1], by simp [List.mem_cons.1 h2], h3, fun r hr => ?_⟩
        rcases List.mem_cons.1 hr with rfl | hr
        · exact Or.inr (hs'.1 b h2).le
        · exact h4 r hr
      · exact Or.inr h
    rw [backLoop]
    by_cases hE : sqErr d ((d.y front - d.y top) / (d.x front - d.x top))
        (d.y top - (d.y front - d.y top) / (d.x front - d.x top) * d.x top) top pos / ((pos : ℚ) - top + 1) ≥ E
    · rw [if_pos hE]
      obtain ⟨L, x, h1, h2, h3, h4⟩ := backLoop_err (top :: heap) q q (front :: pts) top rfl hs'.2
      refine ⟨L ++ [x], q, ?_, ?_, Or.inl rfl, ?_⟩
      · rw [h1]
        simp
      · intro r hr
        rcases List.mem_append.1 hr with hr | hr
        · exact List.mem_cons_of_mem _ (h2 r hr)
        · rw [List.mem_singleton] at hr
          rw [hr]
          exact List.mem_cons_self
      · rw [List.isChain_append]
        refine ⟨h4.imp mono, by simp, ?_⟩
        intro a ha b hb
        simp only [List.getLast?_append, List.getLast?_singleton, Option.some_or, Option.mem_def, Option.some.injEq] at ha
        simp only [List.head?_cons, Option.mem_def, Option.some.injEq] at hb
        subst ha hb
        rcases h3 with rfl | h3
        · refine Or.inl ⟨by simp, by simp, hs'.1 _ (by simp), fun r hr => ?_⟩
          rcases List.mem_cons.1 hr with rfl | hr
          · exact Or.inr le_rfl
          · rcases List.mem_cons.1 hr with rfl | hr
            · exact Or.inl le_rfl
            · exact Or.inl ((List.pairwise_cons.1 hs'.2).1 r hr).le
        · exact Or.inr h3
    · rw [if_neg hE]
      obtain ⟨L, x, h1, h2, h3, h4⟩ := backLoop_err (top :: heap) pos front pts top rfl hs'.2
      refine ⟨L, x, h1, fun r hr => List.mem_cons_of_mem _ (h2 r hr), Or.inr ?_, h4.imp mono⟩
      rcases h3 with rfl | h3
      · rw [sqErr_eq] at hE
        exact not_le.1 hE
      · exact h3

/-- The pieces of the simplified function. -/
theorem fit_err {eps : ℚ} (hn : 2 ≤ d.n) (hx : ∀ i k, i < k → k < d.n → d.x i < d.x k) : ∃ pts, fit d eps none = some pts ∧
    pts.IsChain (fun a b => Settled d (eps * eps) a b ∨ Small d (eps * eps) a b b ∨
      (b = d.n - 1 ∧ ∃ k, a < k ∧ k < b ∧ Small d (eps * eps) a b k)) := by
  have hinv : Inv d.n [⟨0, d.n - 1, -1, 0⟩] (push (d.n - 1) (push 0 [])) := by
    have e : push (d.n - 1) (push 0 []) = [d.n - 1, 0] := by
      simp [push]
    rw [e]
    refine ⟨?_, by simp, by simp, ?_, ?_, ?_, by simp⟩
    · simp only [List.pairwise_cons, List.mem_singleton, forall_eq]
      refine ⟨by omega, by simp, by simp⟩
    · intro p hp; simp at hp; omega
    · intro j hj; simp only [List.mem_singleton] at hj; subst hj; simp only; omega
    · intro j hj p hp; simp only [List.mem_singleton] at hj; subst hj; simp at hp ⊢; omega
  have hcov : Cov d (eps * eps) [⟨0, d.n - 1, -1, 0⟩] (push (d.n - 1) (push 0 [])) := by
    have e : push (d.n - 1) (push 0 []) = [d.n - 1, 0] := by
      simp [push]
    rw [e]
    refine ⟨?_, ?_, ?_⟩
    · intro j hj
      rw [List.mem_singleton] at hj
      subst hj
      refine ⟨by simp, by simp, by simp only; omega, fun p hp => ?_⟩
      simp only [List.mem_cons, List.not_mem_nil, or_false] at hp
      rcases hp with rfl | rfl
      · exact Or.inr le_rfl
      · exact Or.inl le_rfl
    · intro j hj
      rw [List.mem_singleton] at hj
      subst hj
      exact Or.inl (by norm_num)
    · rintro a b ⟨ha, hb, hab, -⟩
      simp only [List.mem_cons, List.not_mem_nil, or_false] at ha hb
      refine Or.inl ⟨_, List.mem_singleton.2 rfl, ?_, ?_⟩ <;> simp only <;> omega
  obtain ⟨heap, hl, hi⟩ := loop_spec (d := d) (eps := eps * eps) (ms := none) (2 * d.n) _ _ hinv (by
    simp only [work, List.map_cons, List.map_nil, List.sum_cons, List.sum_nil]; omega)
  have hset := loop_cov hx (by omega) _ _ _ _ hinv hcov hl
  have h0 := hi.zero
  have hl' := hi.last
  have hs := hi.sorted
  have hb := hi.bound
  obtain ⟨a, p, rest, rfl⟩ : ∃ a p rest, heap = a :: p :: rest := by
    match heap, h0, hl' with
    | [a], h0, hl' => simp at h0 hl'; omega
    | a :: p :: rest, _, _ => exact ⟨a, p, rest, rfl⟩
  have hs' := List.pairwise_cons.1 hs
  have ha : a = d.n - 1 := by
    have h1 := hb a (by simp)
    rcases List.mem_cons.1 hl' with h | h
    · exact h.symm
    · have := hs'.1 _ h; omega
  obtain ⟨L, x, h1, h2, h3, h4⟩ := backLoop_err (d := d) (E := eps * eps) (p :: rest) p a [] p rfl hs'.2
  refine ⟨backLoop d (eps * eps) (p :: rest) p a [], ?_, ?_⟩
  · have : d.n > 1 := hn
    simp only [fit, this, if_true, hl, backward]
    rfl
  · rw [h1, List.isChain_append]
    refine ⟨h4.imp ?_, by simp, ?_⟩
    · rintro u v (⟨g1, g2, g3, g4⟩ | g)
      · refine Or.inl (hset u v ⟨by simp [List.mem_cons.1 g1], by simp [List.mem_cons.1 g2], g3, fun r hr => ?_⟩)
        rcases List.mem_cons.1 hr with rfl | hr
        · exact Or.inr (hs'.1 v g2).le
        · exact g4 r hr
      · exact Or.inr (Or.inl g)
    · intro u hu v hv
      simp only [List.getLast?_append, List.getLast?_singleton, Option.some_or, Option.mem_def, Option.some.injEq] at hu
      simp only [List.head?_cons, Option.mem_def, Option.some.injEq] at hv
      subst hu hv
      have hxm := h2 x (by simp)
      by_cases hxp : x = p
      · subst hxp
        refine Or.inl (hset x a ⟨by simp, by simp, hs'.1 x hxm, fun r hr => ?_⟩)
        rcases List.mem_cons.1 hr with rfl | hr
        · exact Or.inr le_rfl
        · rcases List.mem_cons.1 hr with rfl | hr
          · exact Or.inl le_rfl
          · exact Or.inl ((List.pairwise_cons.1 hs'.2).1 r hr).le
      · refine Or.inr (Or.inr ⟨ha, p, ?_, hs'.1 p (by simp), h3.resolve_left hxp⟩)
        exact (List.pairwise_cons.1 hs'.2).1 x ((List.mem_cons.1 hxm).resolve_left hxp)

end Verif.Num.Reg
