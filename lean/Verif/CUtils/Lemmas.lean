import Verif.CUtils.Model
import Mathlib.Tactic.Ring
import Mathlib.Tactic.FieldSimp

/-! # Correctness of the native sort -/

namespace Verif.CU

variable {α β : Type} [LinearOrder α]

theorem partition_spec (key : β → α) (pivot : α) (off n : ℕ) : ∀ (k : ℕ) (a : ℕ → β) (i l : ℕ),
    l ≤ i → i + k ≤ n →
    (∀ j, j < l → key (a (off + j)) < pivot) →
    (∀ j, l ≤ j → j < i → key (a (off + j)) = pivot) →
    (∀ j, i + k ≤ j → j < n → pivot < key (a (off + j))) →
    ∃ a' l' r', partition key pivot off k a i l = (a', l', r') ∧ l' ≤ r' ∧ r' ≤ n ∧
      Moved a a' off (off + n) ∧
      (∀ j, j < l' → key (a' (off + j)) < pivot) ∧
      (∀ j, l' ≤ j → j < r' → key (a' (off + j)) = pivot) ∧
      (∀ j, r' ≤ j → j < n → pivot < key (a' (off + j)))
  | 0, a, i, l, h1, h2, h3, h4, h5 =>
    ⟨a, l, i, rfl, h1, by omega, Moved.refl _ _ _, h3, h4, fun j hj => h5 j (by omega)⟩
  | k + 1, a, i, l, h1, h2, h3, h4, h5 => by
    unfold partition
    split
    · rename_i hlt
      obtain ⟨a', l', r', e, k1, k2, k3, k4⟩ := partition_spec key pivot off n k
        (swapAt a (off + i) (off + l)) (i + 1) (l + 1) (by omega) (by omega)
        (by
          intro j hj
          simp only [swapAt]
          split_ifs with c1 c2
          · have : i = l := by omega
            subst this; exact hlt
          · exact hlt
          · exact h3 j (by omega))
        (by
          intro j hj hj'
          simp only [swapAt]
          split_ifs with c1 c2
          · exact h4 l (by omega) (by omega)
          · omega
          · exact h4 j (by omega) (by omega))
        (by
          intro j hj hj'
          simp only [swapAt]
          rw [if_neg (by omega), if_neg (by omega)]
          exact h5 j (by omega) hj')
      refine ⟨a', l', r', e, k1, k2, ?_, k4⟩
      exact (Moved.swap a (by omega) (by omega) (by omega) (by omega)).trans k3
    · rename_i hlt
      split
      · rename_i hgt
        obtain ⟨a', l', r', e, k1, k2, k3, k4⟩ := partition_spec key pivot off n k
          (swapAt a (off + i) (off + (i + k))) i l (by omega) (by omega)
          (by
            intro j hj
            simp only [swapAt]
            rw [if_neg (by omega), if_neg (by omega)]
            exact h3 j (by omega))
          (by
            intro j hj hj'
            simp only [swapAt]
            rw [if_neg (by omega), if_neg (by omega)]
            exact h4 j (by omega) (by omega))
          (by
            intro j hj hj'
            simp only [swapAt]
            split_ifs with c1 c2
            · have : off + (i + k) = off + i := by omega
              rw [this]; exact hgt
            · exact hgt
            · exact h5 j (by omega) hj')
        refine ⟨a', l', r', e, k1, k2, ?_, k4⟩
        exact (Moved.swap a (by omega) (by omega) (by omega) (by omega)).trans k3
      · rename_i hgt
        exact partition_spec key pivot off n k a (i + 1) l (by omega) (by omega) h3
          (by
            intro j hj hj'
            rcases Nat.lt_or_ge j i with h | h
            · exact h4 j hj h
            · have : j = i := by omega
              subst this
              exact le_antisymm (not_lt.1 hgt) (not_lt.1 hlt))
          (fun j hj => h5 j (by omega))

/-- Parents from `s` on are at least as large as their children below `e`. -/
def HeapFrom (key : β → α) (off s e : ℕ) (a : ℕ → β) : Prop :=
  ∀ p, s ≤ p → ∀ c, (c = 2 * p + 1 ∨ c = 2 * p + 2) → c < e →
    key (a (off + c)) ≤ key (a (off + p))

theorem siftDown_spec (key : β → α) (off s e : ℕ) : ∀ (fuel : ℕ) (a : ℕ → β) (root : ℕ),
    s ≤ root → e ≤ root + fuel →
    (∀ p, s ≤ p → p ≠ root → ∀ c, (c = 2 * p + 1 ∨ c = 2 * p + 2) → c < e →
      key (a (off + c)) ≤ key (a (off + p))) →
    (∀ p, s ≤ p → (root = 2 * p + 1 ∨ root = 2 * p + 2) →
      ∀ c, (c = 2 * root + 1 ∨ c = 2 * root + 2) → c < e → key (a (off + c)) ≤ key (a (off + p))) →
    HeapFrom key off s e (siftDown key off fuel a root e) ∧
      Moved a (siftDown key off fuel a root e) (off + root) (off + e)
  | 0, a, root, h1, h2, h3, h4 => by
    refine ⟨fun p hp c hc hce => ?_, Moved.refl _ _ _⟩
    by_cases hpr : p = root
    · omega
    · exact h3 p hp hpr c hc hce
  | fuel + 1, a, root, h1, h2, h3, h4 => by
    simp only [siftDown]
    -- the index of the largest of root and children
    generalize hm1 : (if root * 2 + 1 < e ∧ key (a (off + root)) < key (a (off + (root * 2 + 1)))
      then root * 2 + 1 else root) = m1
    generalize hm2 : (if root * 2 + 1 + 1 < e ∧ key (a (off + m1)) < key (a (off + (root * 2 + 1 + 1)))
      then root * 2 + 1 + 1 else m1) = m2
    have f1 : ∀ c, (c = 2 * root + 1 ∨ c = 2 * root + 2) → c < e →
        key (a (off + c)) ≤ key (a (off + m2)) := by
      have g1 : root * 2 + 1 < e → key (a (off + (root * 2 + 1))) ≤ key (a (off + m1)) := by
        intro h; subst hm1; split_ifs with c
        · exact le_refl _
        · exact not_lt.1 (fun h' => c ⟨h, h'⟩)
      have g2 : key (a (off + m1)) ≤ key (a (off + m2)) := by
        subst hm2; split_ifs with c
        · exact le_of_lt c.2
        · exact le_refl _
      have g3 : root * 2 + 1 + 1 < e → key (a (off + (root * 2 + 1 + 1))) ≤ key (a (off + m2)) := by
        intro h; subst hm2; split_ifs with c
        · exact le_refl _
        · exact not_lt.1 (fun h' => c ⟨h, h'⟩)
      intro c hc hce
      rcases hc with rfl | rfl
      · rw [Nat.mul_comm]; exact le_trans (g1 (by omega)) g2
      · have : 2 * root + 2 = root * 2 + 1 + 1 := by omega
        rw [this]; exact g3 (by omega)
    have f2 : m2 = root ∨ ((m2 = 2 * root + 1 ∨ m2 = 2 * root + 2) ∧ m2 < e) := by
      subst hm2; subst hm1; split_ifs <;> omega
    have f3 : key (a (off + root)) ≤ key (a (off + m2)) := by
      have g1 : key (a (off + root)) ≤ key (a (off + m1)) := by
        subst hm1; split_ifs with c
        · exact le_of_lt c.2
        · exact le_refl _
      refine le_trans g1 ?_
      subst hm2; split_ifs with c
      · exact le_of_lt c.2
      · exact le_refl _
    clear hm1 hm2
    split
    · rename_i hr
      subst hr
      refine ⟨fun p hp c hc hce => ?_, Moved.refl _ _ _⟩
      by_cases hpr : p = m2
      · subst hpr; exact f1 c hc hce
      · exact h3 p hp hpr c hc hce
    · rename_i hr
      have f2' : (m2 = 2 * root + 1 ∨ m2 = 2 * root + 2) ∧ m2 < e := f2.resolve_left hr
      have sw : ∀ k, swapAt a (off + root) (off + m2) (off + k) =
          if k = root then a (off + m2) else if k = m2 then a (off + root) else a (off + k) := by
        intro k; simp only [swapAt]
        split_ifs <;> first | rfl | omega
      have := siftDown_spec key off s e fuel (swapAt a (off + root) (off + m2)) m2
        (by omega) (by omega)
        (by
          intro p hp hpm c hc hce
          rw [sw, sw]
          by_cases hpr : p = root
          · subst hpr
            rw [if_pos rfl, if_neg (by omega)]
            split_ifs with c1
            · exact f3
            · exact f1 c hc hce
          · rw [if_neg hpr, if_neg hpm]
            have hcm : c ≠ m2 := by omega
            split_ifs with c1
            · subst c1
              exact h4 p hp hc m2 f2'.1 f2'.2
            · exact h3 p hp hpr c hc hce)
        (by
          intro p hp hmp c hc hce
          have hpr : p = root := by omega
          subst hpr
          rw [sw, sw, if_pos rfl, if_neg (by omega), if_neg (by omega)]
          exact h3 m2 (by omega) (by omega) c hc hce)
      refine ⟨this.1, ?_⟩
      exact (Moved.swap a (by omega) (by omega) (by omega) (by omega)).trans
        (this.2.mono (by omega) (le_refl _))

theorem heapify_spec (key : β → α) (off n : ℕ) : ∀ (s : ℕ) (a : ℕ → β),
    HeapFrom key off s n a →
    HeapFrom key off 0 n (heapify key off n s a) ∧ Moved a (heapify key off n s a) off (off + n)
  | 0, a, h => ⟨h, Moved.refl _ _ _⟩
  | s + 1, a, h => by
    have h1 := siftDown_spec key off s n n a s (le_refl _) (by omega)
      (fun p hp hps c hc hce => h p (by omega) c hc hce) (fun p hp hps => by omega)
    have h2 := heapify_spec key off n s _ h1.1
    exact ⟨h2.1, (h1.2.mono (by omega) (le_refl _)).trans h2.2⟩

/-- The root of a heap is its largest element. -/
theorem heap_root (key : β → α) {off e : ℕ} {a : ℕ → β} (h : HeapFrom key off 0 e a) :
    ∀ i, i < e → key (a (off + i)) ≤ key (a (off + 0)) := by
  intro i
  induction i using Nat.strong_induction_on with
  | _ i ih =>
    intro hi
    rcases Nat.eq_zero_or_pos i with rfl | hpos
    · exact le_refl _
    · exact le_trans (h ((i - 1) / 2) (by omega) i (by omega) hi) (ih _ (by omega) (by omega))

theorem shrink_spec (key : β → α) (off n : ℕ) : ∀ (e : ℕ) (a : ℕ → β), e < n →
    HeapFrom key off 0 (e + 1) a →
    (∀ i j, i < j → e < j → j < n → key (a (off + i)) ≤ key (a (off + j))) →
    (∀ i j, i < j → j < n → key (shrink key off n e a (off + i)) ≤ key (shrink key off n e a (off + j))) ∧
      Moved a (shrink key off n e a) off (off + n)
  | 0, a, _, _, h2 => ⟨fun i j hij hj => h2 i j hij (by omega) hj, Moved.refl _ _ _⟩
  | e + 1, a, hen, h1, h2 => by
    have hroot := heap_root key h1
    have sw : ∀ k, swapAt a (off + 0) (off + (e + 1)) (off + k) =
        if k = 0 then a (off + (e + 1)) else if k = e + 1 then a (off + 0) else a (off + k) := by
      intro k; simp only [swapAt]
      split_ifs <;> first | rfl | omega
    have hs := siftDown_spec key off 0 (e + 1) n (swapAt a (off + 0) (off + (e + 1))) 0 (le_refl _)
      (by omega)
      (by
        intro p _ hp0 c hc hce
        rw [sw, sw, if_neg (by omega), if_neg (by omega), if_neg (by omega), if_neg (by omega)]
        exact h1 p (by omega) c hc (by omega))
      (fun p _ hp => by omega)
    simp only [shrink]
    generalize hb : siftDown key off n (swapAt a (off + 0) (off + (e + 1))) 0 (e + 1) = b at hs ⊢
    have hsw : Moved a (swapAt a (off + 0) (off + (e + 1))) off (off + (e + 2)) :=
      Moved.swap a (by omega) (by omega) (by omega) (by omega)
    have := shrink_spec key off n e b (by omega) hs.1
      (by
        intro i j hij hej hj
        -- position j is outside the range touched by siftDown
        have hbj : b (off + j) = swapAt a (off + 0) (off + (e + 1)) (off + j) :=
          hs.2.outside (by omega)
        rcases Nat.lt_or_ge e i with hi | hi
        · have hbi : b (off + i) = swapAt a (off + 0) (off + (e + 1)) (off + i) :=
            hs.2.outside (by omega)
          rw [hbi, hbj, sw, sw, if_neg (c := i = 0) (by omega), if_neg (c := j = 0) (by omega)]
          by_cases c1 : i = e + 1
          · rw [if_pos c1, if_neg (by omega)]
            exact h2 0 j (by omega) (by omega) hj
          · rw [if_neg c1, if_neg (by omega)]
            exact h2 i j hij (by omega) hj
        · obtain ⟨i', hi1, hi2, hi3⟩ := hs.2.inside (k := off + i) (by omega)
          obtain ⟨i'', rfl⟩ : ∃ q, i' = off + q := ⟨i' - off, by omega⟩
          rw [hi3, hbj, sw, sw, if_neg (c := j = 0) (by omega)]
          by_cases c1 : j = e + 1
          · rw [if_pos c1]
            split_ifs with c2 c3
            · exact hroot _ (by omega)
            · exact le_refl _
            · exact hroot _ (by omega)
          · rw [if_neg c1]
            split_ifs with c2 c3
            · exact h2 _ j (by omega) (by omega) hj
            · exact h2 _ j (by omega) (by omega) hj
            · exact h2 _ j (by omega) (by omega) hj)
    refine ⟨this.1, ?_⟩
    exact (hsw.mono (le_refl _) (by omega)).trans
      ((hs.2.mono (by omega) (by omega)).trans this.2)

theorem heapsort_spec (key : β → α) (a : ℕ → β) (off n : ℕ) (hn : 1 < n) :
    (∀ i j, i < j → j < n →
      key (heapsort key a off n (off + i)) ≤ key (heapsort key a off n (off + j))) ∧
    Moved a (heapsort key a off n) off (off + n) := by
  have h1 := heapify_spec key off n ((n - 2) / 2 + 1) a (by
    intro p hp c hc hce; omega)
  have h2 := shrink_spec key off n (n - 1) (heapify key off n ((n - 2) / 2 + 1) a) (by omega)
    (by
      have : n - 1 + 1 = n := by omega
      rw [this]; exact h1.1)
    (fun i j _ h3 h4 => by omega)
  exact ⟨h2.1, h1.2.trans h2.2⟩

theorem introsort_spec (key : β → α) : ∀ (maxd : ℕ) (a : ℕ → β) (off n : ℕ),
    (∀ i j, i < j → j < n →
      key (introsort key maxd a off n (off + i)) ≤ key (introsort key maxd a off n (off + j))) ∧
    Moved a (introsort key maxd a off n) off (off + n)
  | 0, a, off, n => by
    unfold introsort
    split
    · exact ⟨fun i j _ _ => by omega, Moved.refl _ _ _⟩
    · exact heapsort_spec key a off n (by omega)
  | d + 1, a, off, n => by
    unfold introsort
    split
    · exact ⟨fun i j _ _ => by omega, Moved.refl _ _ _⟩
    · obtain ⟨a1, l, r, he, hlr, hrn, hm, p1, p2, p3⟩ := partition_spec key (median3 key a off n) off n n
        a 0 0 (le_refl _) (by omega) (fun j hj => by omega) (fun j _ hj => by omega)
        (fun j hj hj' => by omega)
      simp only [he]
      generalize median3 key a off n = pivot at *
      obtain ⟨s1, m1⟩ := introsort_spec key d a1 off l
      generalize introsort key d a1 off l = a2 at *
      obtain ⟨s2, m2⟩ := introsort_spec key d a2 (off + r) (n - r)
      generalize introsort key d a2 (off + r) (n - r) = a3 at *
      have q1 : ∀ j, j < l → key (a3 (off + j)) < pivot ∧ a3 (off + j) = a2 (off + j) := by
        intro j hj
        have e1 := m2.outside (k := off + j) (by omega)
        obtain ⟨j', h1, h2, h3⟩ := m1.inside (k := off + j) (by omega)
        obtain ⟨j'', rfl⟩ : ∃ q, j' = off + q := ⟨j' - off, by omega⟩
        exact ⟨by rw [e1, h3]; exact p1 _ (by omega), e1⟩
      have q2 : ∀ j, l ≤ j → j < r → key (a3 (off + j)) = pivot := by
        intro j hj hj'
        rw [m2.outside (k := off + j) (by omega), m1.outside (k := off + j) (by omega)]
        exact p2 j hj hj'
      have q3 : ∀ j, r ≤ j → j < n → pivot < key (a3 (off + j)) := by
        intro j hj hj'
        obtain ⟨j', h1, h2, h3⟩ := m2.inside (k := off + j) (by omega)
        obtain ⟨j'', rfl⟩ : ∃ q, j' = off + q := ⟨j' - off, by omega⟩
        rw [h3, m1.outside (k := off + j'') (by omega)]
        exact p3 _ (by omega) (by omega)
      constructor
      · intro i j hij hj
        rcases Nat.lt_or_ge j l with hjl | hjl
        · rw [(q1 i (by omega)).2, (q1 j hjl).2]; exact s1 i j hij hjl
        · rcases Nat.lt_or_ge i r with hir | hir
          · have h1 : key (a3 (off + i)) ≤ pivot := by
              rcases Nat.lt_or_ge i l with h | h
              · exact le_of_lt (q1 i h).1
              · exact le_of_eq (q2 i h hir)
            have h2 : pivot ≤ key (a3 (off + j)) := by
              rcases Nat.lt_or_ge j r with h | h
              · exact le_of_eq (q2 j hjl h).symm
              · exact le_of_lt (q3 j h hj)
            exact le_trans h1 h2
          · have := s2 (i - r) (j - r) (by omega) (by omega)
            have e1 : off + r + (i - r) = off + i := by omega
            have e2 : off + r + (j - r) = off + j := by omega
            rwa [e1, e2] at this
      · exact hm.trans ((m1.mono (le_refl _) (by omega)).trans (m2.mono (by omega) (by omega)))

theorem bisectAux_spec (X : ℕ → α) (v : α) : ∀ (fuel lower upper : ℕ), lower ≤ upper →
    upper - lower < fuel → (∀ i j, i ≤ j → j ≤ upper → X i ≤ X j) →
    ∃ r, bisectAux X v fuel lower upper = .ok r ∧ lower ≤ r ∧ r ≤ upper + 1 ∧
      (∀ j, lower ≤ j → j < r → X j ≤ v) ∧ (∀ j, r ≤ j → j ≤ upper → v ≤ X j)
  | 0, _, _, _, h, _ => by omega
  | fuel + 1, lower, upper, h1, h2, h3 => by
    unfold bisectAux
    split
    · rename_i c
      exact ⟨lower, rfl, le_refl _, by omega, fun j _ _ => by omega,
        fun j hj hj' => le_trans c (h3 _ _ hj hj')⟩
    · rename_i c
      split
      · rename_i c2
        exact ⟨upper + 1, rfl, by omega, le_refl _,
          fun j hj hj' => le_trans (h3 j upper (by omega) (le_refl _)) c2, fun j _ _ => by omega⟩
      · rename_i c2
        rw [ge_iff_le, not_le] at c
        rw [not_le] at c2
        have hne : lower ≠ upper := fun he => by
          subst he; exact absurd c (not_lt.2 (le_of_lt c2))
        split
        · rename_i c3
          refine ⟨upper, rfl, h1, by omega, fun j hj hj' => ?_, fun j hj hj' => ?_⟩
          · have : j = lower := by omega
            subst this; exact le_of_lt c
          · have : j = upper := by omega
            subst this; exact le_of_lt c2
        · rename_i c3
          have hlu : lower + 1 < upper := by
            by_contra hc
            exact c3 ⟨by omega, c, c2⟩
          dsimp only
          split
          · rename_i c4
            obtain ⟨r, e, k1, k2, k3, k4⟩ := bisectAux_spec X v fuel ((lower + upper) / 2) upper
              (by omega) (by omega) h3
            refine ⟨r, e, by omega, k2, fun j hj hj' => ?_, k4⟩
            rcases Nat.lt_or_ge j ((lower + upper) / 2) with h | h
            · exact le_trans (h3 j _ (le_of_lt h) (by omega)) (le_of_lt c4)
            · exact k3 j h hj'
          · rename_i c4
            obtain ⟨r, e, k1, k2, k3, k4⟩ := bisectAux_spec X v fuel lower ((lower + upper) / 2)
              (by omega) (by omega) (fun i j hij hj => h3 i j hij (by omega))
            refine ⟨r, e, k1, by omega, k3, fun j hj hj' => ?_⟩
            rcases Nat.lt_or_ge ((lower + upper) / 2) j with h | h
            · exact le_trans (not_lt.1 c4) (h3 _ j (le_of_lt h) hj')
            · exact k4 j hj h

theorem linspaceLoop_spec (space : ℚ) : ∀ (k : ℕ) (val : ℚ),
    (linspaceLoop space k val).length = k ∧
    ∀ i, i < k → (linspaceLoop space k val)[i]? = some (val + i * space)
  | 0, val => ⟨rfl, fun i h => by omega⟩
  | k + 1, val => by
    obtain ⟨h1, h2⟩ := linspaceLoop_spec space k (val + space)
    refine ⟨by simp [linspaceLoop, h1], fun i hi => ?_⟩
    cases i with
    | zero => simp [linspaceLoop]
    | succ i =>
      simp only [linspaceLoop, List.getElem?_cons_succ]
      rw [h2 i (by omega)]
      push_cast
      ring_nf

end Verif.CU
