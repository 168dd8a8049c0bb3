import Verif.Functions.CombineLemmas

/-!
# The loop of `combine`
-/

namespace Verif.Fun

open Iv Iv.FP

namespace PF

variable {val : ℤ → ℚ} {rnd : ℚ → ℤ} {op : Op} {f g : PF}

/-- A half-open interval inside one piece of `f` and one of `g`. -/
def Good (f g : PF) (i : CS) : Prop := i.HalfOpen ∧ (∃ s ∈ f, Sub i s.1) ∧ ∃ t ∈ g, Sub i t.1

/-- What is known of a piece of the result. -/
def Chosen (val : ℤ → ℚ) (rnd : ℚ → ℤ) (op : Op) (f g : PF) (p : CS × Fn) : Prop :=
  p.1.HalfOpen ∧ ∃ s ∈ f, ∃ t ∈ g, Sub p.1 s.1 ∧ Sub p.1 t.1 ∧ ∃ c X, center val rnd p.1 = some c ∧
    s.2.intersection t.2 = .ok X ∧ splitAt rnd p.1 X = none ∧
    p.2 = choose op (deltaAt val s.2 t.2 (some c)) s.2 t.2

open Classical in
/-- The rounds that an interval needs. -/
noncomputable def need (rnd : ℚ → ℤ) (f g : PF) (i : CS) : ℕ :=
  if ∃ s ∈ f, ∃ t ∈ g, Sub i s.1 ∧ Sub i t.1 ∧ ∃ X k, s.2.intersection t.2 = .ok X ∧ splitAt rnd i X = some k then 3 else 1

theorem need_le (i : CS) : need rnd f g i ≤ 3 := by unfold need; split <;> omega

theorem straight_intersection {a b : Fn} (ha : a.isStraight = true) (hb : b.isStraight = true) :
    ∃ X, a.intersection b = .ok X := by
  cases a <;> cases b <;> simp [Fn.isStraight] at ha hb <;> simp [Fn.intersection]

theorem part_unique (hf : ∀ s ∈ f, s.1.HalfOpen) (hd : f.Disj) {i : CS} (hi : i.HalfOpen) {s t : CS × Fn} (hs : s ∈ f)
    (ht : t ∈ f) (h1 : Sub i s.1) (h2 : Sub i t.1) : s = t := by
  obtain ⟨n, hn⟩ := ho_mem hi
  exact disj_unique hd hs ht (h1.mem hi (hf s hs) hn) (h2.mem hi (hf t ht) hn)

theorem splitAt_some {i : CS} {X : Cross} {p : FP} (h : splitAt rnd i X = some p) :
    ∃ x, X = .one x ∧ p = fin (rnd x) ∧ i.Mem (fin (rnd x)) ∧ fin (rnd x) ≠ i.lowermost ∧ fin (rnd x) ≠ i.uppermost := by
  cases X with
  | all => cases h
  | no => cases h
  | one x =>
    simp only [splitAt] at h
    split at h
    · rename_i hc
      obtain rfl := Option.some.inj h
      exact ⟨x, rfl, rfl, (CS.containsValue_iff ..).1 hc.1, hc.2⟩
    · cases h

theorem combineLoop_spec (hv : StrictMono val) (hr : Nearest val rnd) (hf : ∀ s ∈ f, s.1.HalfOpen) (hfd : f.Disj)
    (hfs : ∀ s ∈ f, s.2.isStraight = true) (hg : ∀ s ∈ g, s.1.HalfOpen) (hgd : g.Disj)
    (hgs : ∀ s ∈ g, s.2.isStraight = true) : ∀ (n : ℕ) (queue : List CS),
    (∀ i ∈ queue, Good f g i ∧ ¬ (i.lower = ninf ∧ i.upper = pinf)) → queue.Pairwise RS.Before →
    (queue.map (need rnd f g)).sum ≤ n →
    ∃ r, combineLoop val rnd op f g n queue = .ok r ∧ (∀ p ∈ r, Chosen val rnd op f g p) ∧
      r.Pairwise (fun p q => RS.Before p.1 q.1) ∧ (∀ x, (∃ p ∈ r, p.1.Mem x) ↔ ∃ i ∈ queue, i.Mem x)
  | _, [], _, _, _ => ⟨[], by simp [combineLoop], by simp, by simp, by simp⟩
  | 0, i :: queue, _, _, hn => by
    have : 1 ≤ need rnd f g i := by unfold need; split <;> omega
    simp at hn
    omega
  | n + 1, i :: queue, hq, hp, hn => by
    obtain ⟨⟨hi, ⟨s, hs, his⟩, t, ht, hit'⟩, hw⟩ := hq i (by simp)
    obtain ⟨hp1, hp2⟩ := List.pairwise_cons.1 hp
    obtain ⟨c, hc, hch⟩ : ∃ c, center val rnd i = some c ∧ hit c i = true := by
      rcases center_cases hv hr hi hw with ⟨-, h1, h2⟩ | ⟨-, h1, h2⟩ | ⟨a, b, k, h1, h2, -, -, -, h3, h4, h5, -⟩
      · exact ⟨_, h1, h2⟩
      · exact ⟨_, h1, h2⟩
      · refine ⟨_, h3, ?_⟩
        rw [hit_fin, CS.containsValue_iff, hi.mem_iff, h1, h2]
        simp [FP.le_def, FP.lt_def, leb]
        omega
    have e1 : atCenter f (center val rnd i) = some s.2 := by
      rw [hc]
      show atPos f c = _
      unfold atPos
      rw [(pieceAt_own hf hfd hs (his.hit hi (hf s hs) hch)).1]
      rfl
    have e2 : atCenter g (center val rnd i) = some t.2 := by
      rw [hc]
      show atPos g c = _
      unfold atPos
      rw [(pieceAt_own hg hgd ht (hit'.hit hi (hg t ht) hch)).1]
      rfl
    obtain ⟨X, hX⟩ := straight_intersection (hfs s hs) (hgs t ht)
    simp only [List.map_cons, List.sum_cons] at hn
    simp only [combineLoop, e1, e2, hfs s hs, hgs t ht, Bool.and_self, if_true, hX, bind, Except.bind]
    cases hsp : splitAt rnd i X with
    | some p =>
      obtain ⟨x, rfl, rfl, hm, hl, hu⟩ := splitAt_some hsp
      obtain ⟨hch1, hA, hB⟩ := chop_one hi hm hl
      have hm' := (hi.mem_iff _).1 hm
      set A : CS := ⟨i.lower, fin (rnd x), i.left, .exc⟩ with hAdef
      set B : CS := ⟨fin (rnd x), i.upper, .inc, i.right⟩ with hBdef
      have hAi : Sub A i := ⟨le_refl _, le_of_lt hm'.2⟩
      have hBi : Sub B i := ⟨hm'.1, le_refl _⟩
      have hn3 : need rnd f g i = 3 := by
        unfold need
        rw [if_pos ⟨s, hs, t, ht, his, hit', _, _, hX, hsp⟩]
      have hchild : ∀ j : CS, j.HalfOpen → Sub j i → splitAt rnd j (.one x) = none → need rnd f g j = 1 := by
        intro j hj hji hjn
        unfold need
        rw [if_neg]
        rintro ⟨s', hs', t', ht', h1, h2, X', k', h3, h4⟩
        obtain rfl := part_unique hf hfd hj hs hs' (hji.trans his) h1
        obtain rfl := part_unique hg hgd hj ht ht' (hji.trans hit') h2
        rw [hX] at h3
        cases h3
        rw [hjn] at h4
        cases h4
      have hnA : need rnd f g A = 1 := by
        refine hchild A hA hAi ?_
        have : ¬ A.Mem (fin (rnd x)) := by
          rw [hA.mem_iff]
          exact fun h => absurd h.2 (lt_irrefl _)
        simp [splitAt, CS.containsValue_iff, this]
      have hnB : need rnd f g B = 1 := by
        refine hchild B hB hBi ?_
        have : B.lowermost = fin (rnd x) := hB.lowermost
        simp [splitAt, this]
      have hmem : ∀ y, (A.Mem y ∨ B.Mem y) ↔ i.Mem y := by
        intro y
        constructor
        · rintro (h | h)
          · obtain ⟨m, rfl⟩ := norm_mem_fin hA h
            exact hAi.mem hA hi h
          · obtain ⟨m, rfl⟩ := norm_mem_fin hB h
            exact hBi.mem hB hi h
        · intro h
          obtain ⟨m, rfl⟩ := norm_mem_fin hi h
          rw [hi.mem_iff] at h
          rw [hA.mem_iff, hB.mem_iff]
          by_cases hc : fin m < fin (rnd x)
          · exact .inl ⟨h.1, hc⟩
          · exact .inr ⟨not_lt.1 hc, h.2⟩
      obtain ⟨r, h1, h2, h3, h4⟩ := combineLoop_spec hv hr hf hfd hfs hg hgd hgs n (A :: B :: queue) (by
          intro j hj
          rcases List.mem_cons.1 hj with rfl | hj
          · exact ⟨⟨hA, ⟨s, hs, hAi.trans his⟩, t, ht, hAi.trans hit'⟩, fun h => by simp [hAdef] at h⟩
          rcases List.mem_cons.1 hj with rfl | hj
          · exact ⟨⟨hB, ⟨s, hs, hBi.trans his⟩, t, ht, hBi.trans hit'⟩, fun h => by simp [hBdef] at h⟩
          · exact hq j (by simp [hj]))
        (by
          rw [List.pairwise_cons, List.pairwise_cons]
          refine ⟨?_, ?_, hp2⟩
          · intro j hj
            rcases List.mem_cons.1 hj with rfl | hj
            · intro y z hy hz
              obtain ⟨m, rfl⟩ := norm_mem_fin hA hy
              obtain ⟨m', rfl⟩ := norm_mem_fin hB hz
              rw [hA.mem_iff] at hy
              rw [hB.mem_iff] at hz
              exact lt_of_lt_of_le hy.2 hz.1
            · exact fun y z hy hz => hp1 j hj y z ((hmem y).1 (.inl hy)) hz
          · exact fun j hj y z hy hz => hp1 j hj y z ((hmem y).1 (.inr hy)) hz)
        (by simp only [List.map_cons, List.sum_cons, hnA, hnB]; omega)
      simp only [hch1]
      refine ⟨r, h1, h2, h3, ?_⟩
      intro y
      rw [h4]
      simp only [List.mem_cons, exists_eq_or_imp]
      rw [← or_assoc, hmem]
    | none =>
      have hn1 : 1 ≤ need rnd f g i := by unfold need; split <;> omega
      obtain ⟨r, h1, h2, h3, h4⟩ := combineLoop_spec hv hr hf hfd hfs hg hgd hgs n queue
        (fun j hj => hq j (by simp [hj])) hp2 (by omega)
      simp only [h1, pure, Except.pure]
      refine ⟨_, rfl, ?_, ?_, ?_⟩
      · intro p hp
        rcases List.mem_cons.1 hp with rfl | hp
        · exact ⟨hi, s, hs, t, ht, his, hit', c, X, hc, hX, hsp, by simp only [hc]⟩
        · exact h2 p hp
      · rw [List.pairwise_cons]
        refine ⟨?_, h3⟩
        intro p hp y z hy hz
        obtain ⟨j, hj, hjz⟩ := (h4 z).1 ⟨p, hp, hz⟩
        exact hp1 j hj y z hy hjz
      · intro y
        simp only [List.mem_cons, exists_eq_or_imp, ← h4 y]

end PF

end Verif.Fun
