import Verif.Functions.ApproxLemmas8

/-!
# Approximation by constants and by lines
-/

namespace Verif.Fun

open Iv Iv.FP

namespace PF

variable {val : ℤ → ℚ} {rnd : ℚ → ℤ} {p : PF} {K : List ℤ} {B B' : ℤ → ℤ → Fn → Prop} {f0 fl : Fn}

theorem Blocks.imp (h : ∀ a b f, B a b f → B' a b f) {ks : List ℤ} {bs : PF} (hb : Blocks B ks bs) : Blocks B' ks bs := by
  induction hb with
  | one a => exact .one a
  | cons h1 _ ih => exact .cons (h _ _ _ h1) ih

theorem Blocks.imp_mem {ks : List ℤ} {bs : PF} (hb : Blocks B ks bs)
    (h : ∀ a b f, a ∈ ks → b ∈ ks → (co a b, f) ∈ bs → B a b f → B' a b f) : Blocks B' ks bs := by
  induction hb with
  | one a => exact .one a
  | @cons a b ks f bs h1 _ ih =>
    refine .cons (h _ _ _ (by simp) (by simp) (by simp) h1) (ih (fun a' b' f' h1 h2 h3 h4 => ?_))
    exact h a' b' f' (List.mem_cons_of_mem _ h1) (List.mem_cons_of_mem _ h2) (List.mem_cons_of_mem _ h3) h4

theorem Blocks.covers {ks : List ℤ} {bs : PF} (hb : Blocks B ks bs) : ∀ {a z : ℤ}, ks.head? = some a → ks.getLast? = some z →
    ∀ n, a ≤ n → n < z → ∃ s ∈ bs, s.1.Mem (fin n) := by
  induction hb with
  | one x =>
    intro a z ha hz n h1 h2
    simp at ha hz
    omega
  | @cons x y ks f bs h1 _ ih =>
    intro a z ha hz n h2 h3
    simp at ha
    subst ha
    by_cases hn : n < y
    · exact ⟨_, List.mem_cons_self, co_mem.2 ⟨h2, hn⟩⟩
    · obtain ⟨s, hs, hm⟩ := ih rfl (z := z) (by simpa [List.getLast?_cons] using hz) n (by omega) h3
      exact ⟨s, List.mem_cons_of_mem _ hs, hm⟩

/-- No block reaches over a knot. -/
theorem Blocks.knot {ks : List ℤ} {bs : PF} (hb : Blocks B ks bs) (hs : ks.Pairwise (· < ·)) :
    ∀ s ∈ bs, ∃ x y, s.1 = co x y ∧ x < y ∧ x ∈ ks ∧ y ∈ ks ∧ B x y s.2 ∧ ∀ b ∈ ks, y ≤ b ∨ b ≤ x := by
  induction hb with
  | one a => simp
  | @cons a b ks f bs h1 h2 ih =>
    intro s hs'
    have hab : a < b := (List.pairwise_cons.1 hs).1 b (by simp)
    rcases List.mem_cons.1 hs' with rfl | hs'
    · refine ⟨a, b, rfl, hab, by simp, by simp, h1, fun k hk => ?_⟩
      rcases List.mem_cons.1 hk with rfl | hk
      · exact .inr (le_refl _)
      · exact .inl (sorted_head (List.pairwise_cons.1 hs).2 rfl k hk)
    · obtain ⟨x, y, e1, e2, e3, e4, e5, e6⟩ := ih (List.pairwise_cons.1 hs).2 s hs'
      refine ⟨x, y, e1, e2, List.mem_cons_of_mem _ e3, List.mem_cons_of_mem _ e4, e5, fun k hk => ?_⟩
      rcases List.mem_cons.1 hk with rfl | hk
      · exact .inr ((List.pairwise_cons.1 hs).1 x e3).le
      · exact e6 k hk

theorem Blocks.before {ks : List ℤ} {bs : PF} (hb : Blocks B ks bs) (hs : ks.Pairwise (· < ·)) :
    bs.Pairwise (fun s t => RS.Before s.1 t.1) := by
  induction hb with
  | one a => exact .nil
  | @cons a b ks f bs h1 h2 ih =>
    rw [List.pairwise_cons]
    refine ⟨fun t ht => ?_, ih (List.pairwise_cons.1 hs).2⟩
    obtain ⟨x, y, e1, e2, e3, -⟩ := h2.knot (List.pairwise_cons.1 hs).2 t ht
    have hx : b ≤ x := sorted_head (List.pairwise_cons.1 hs).2 rfl x e3
    apply before_of_lt
    rw [e1]
    simp [co, CS.uppermost, CS.lowermost, FP.dn, FP.lt_def, leb]
    omega

/-- What a framed function looks like. -/
theorem Framed.lines (h : Framed B f0 fl K p) (hs : K.Pairwise (· < ·)) (h0 : f0.isStraight = true)
    (hl : fl.isStraight = true) (hB : ∀ a b f, B a b f → f.isStraight = true) :
    p.Lines ∧ ∀ n, p.Covers n := by
  obtain ⟨a, z, bs, ha, hz, hb, rfl⟩ := h
  have haz : a ≤ z := sorted_head hs ha z (List.mem_of_getLast? hz)
  have hkn := hb.knot hs
  refine ⟨⟨by simp, ?_, ?_, ?_⟩, ?_⟩
  · intro s hs'
    simp only [List.cons_append, List.mem_cons, List.mem_append, List.not_mem_nil, or_false] at hs'
    rcases hs' with rfl | hs' | rfl
    · exact firstI_halfOpen a
    · obtain ⟨x, y, e1, e2, -⟩ := hkn s hs'
      rw [e1]; exact co_halfOpen e2
    · exact lastI_halfOpen z
  · apply sorted_disj
    rw [List.cons_append, List.pairwise_cons, List.pairwise_append]
    refine ⟨?_, hb.before hs, by simp, ?_⟩
    · intro t ht
      apply before_of_lt
      rcases List.mem_append.1 ht with ht | ht
      · obtain ⟨x, y, e1, e2, e3, -⟩ := hkn t ht
        have := sorted_head hs ha x e3
        rw [e1]
        simp [co, firstI, CS.uppermost, CS.lowermost, FP.dn, FP.lt_def, leb]
        omega
      · simp at ht
        subst ht
        simp [lastI, firstI, CS.uppermost, CS.lowermost, FP.dn, FP.lt_def, leb]
        omega
    · intro s hs' t ht
      apply before_of_lt
      simp at ht
      subst ht
      obtain ⟨x, y, e1, e2, e3, e4, -⟩ := hkn s hs'
      have := sorted_last hs hz y e4
      rw [e1]
      simp [co, lastI, CS.uppermost, CS.lowermost, FP.dn, FP.lt_def, leb]
      omega
  · have hst : ∀ f : Fn, f.isStraight = true → (∃ v, f = .const v) ∨ ∃ m c, f = .lin m c := by
      intro f hf
      obtain ⟨m, c, e | e⟩ := Fn.straight_or hf
      · exact .inr ⟨m, c, e⟩
      · exact .inl ⟨c, e⟩
    intro s hs'
    simp only [List.cons_append, List.mem_cons, List.mem_append, List.not_mem_nil, or_false] at hs'
    rcases hs' with rfl | hs' | rfl
    · exact hst _ h0
    · obtain ⟨x, y, e1, e2, e3, e4, e5, -⟩ := hkn s hs'
      exact hst _ (hB _ _ _ e5)
    · exact hst _ hl
  · intro n
    by_cases h1 : n < a
    · exact ⟨(firstI a, f0), by simp, firstI_mem.2 h1⟩
    · by_cases h2 : n < z
      · obtain ⟨s, hs', hm⟩ := hb.covers ha hz n (by omega) h2
        exact ⟨s, by simp [hs'], hm⟩
      · exact ⟨(lastI z, fl), by simp, lastI_mem.2 (by omega)⟩

/-- The inner pieces of a framed function. -/
theorem Framed.inner (h : Framed B f0 fl K p) (hs : K.Pairwise (· < ·)) : ∀ s ∈ p,
    (∃ a, s = (firstI a, f0)) ∨ (∃ z, s = (lastI z, fl)) ∨
      ∃ x y, s.1 = co x y ∧ x < y ∧ B x y s.2 ∧ ∀ b ∈ K, y ≤ b ∨ b ≤ x := by
  obtain ⟨a, z, bs, ha, hz, hb, rfl⟩ := h
  intro s hs'
  simp only [List.cons_append, List.mem_cons, List.mem_append, List.not_mem_nil, or_false] at hs'
  rcases hs' with rfl | hs' | rfl
  · exact .inl ⟨a, rfl⟩
  · obtain ⟨x, y, e1, e2, e3, e4, e5, e6⟩ := hb.knot hs s hs'
    exact .inr (.inr ⟨x, y, e1, e2, e5, e6⟩)
  · exact .inr (.inl ⟨z, rfl⟩)

/-! ### The new function -/

theorem construct_eq {plf : PF} {kind : By} {a b c : ℤ} {f g : Fn} (hab : a < b) (hbc : b < c) {x y : ℚ}
    (hx : f.eval (val a) = some x) (hy : g.eval (val c) = some y) {n : Fn}
    (hn : replaceBy val kind (co a b) (co b c) (co a c) a c x y = .ok n) {e : ℚ}
    (he : meanError val rnd plf (co a c) n = .ok (some (.fin e))) :
    construct val rnd plf kind ⟨co a b, f⟩ ⟨co b c, g⟩ = .ok ⟨some (.fin e), ⟨co a b, f⟩, ⟨co b c, g⟩, ⟨co a c, n⟩, none, none⟩ := by
  have hmk : CS.mk? (co a b).lower (co b c).upper (co a b).left (co b c).right = .ok (co a c) := by
    have : ¬ (fin a > fin c) := by simp [FP.lt_def, leb]; omega
    simp [CS.mk?, co, this]
  unfold construct
  rw [if_neg (by simp [co_contiguous hab hbc, co_inf])]
  simp only [hmk, bind, Except.bind]
  have e1 : (co a c).lower = fin a := rfl
  have e2 : (co a c).upper = fin c := rfl
  simp only [e1, e2, hx, hy, hn, he]

/-! ### Constants -/

theorem constOn_none {a b : ℤ} {s : CS × Fn} (h : s.1 ≠ co a b) : constOn a b s = none := by
  unfold constOn
  split
  · rw [if_neg h]
  · rfl

theorem pieceValue_some (hd : p.Disj) {a b : ℤ} (hab : a < b) {v : ℚ} (h : (co a b, Fn.const v) ∈ p) :
    pieceValue p a b = some v := by
  obtain ⟨U, V, rfl⟩ := List.append_of_mem h
  unfold pieceValue
  rw [List.findSome?_append]
  have : List.findSome? (constOn a b) U = none := by
    rw [List.findSome?_eq_none_iff]
    intro s hs
    refine constOn_none (fun e => ?_)
    have := (List.pairwise_append.1 hd).2.2 s hs (co a b, .const v) (by simp)
    rw [e] at this
    exact this (fin a) ⟨co_mem.2 ⟨le_refl _, hab⟩, co_mem.2 ⟨le_refl _, hab⟩⟩
  rw [this]
  simp [constOn]

theorem pieceValue_none {a b : ℤ} (h : ∀ s ∈ p, s.1 ≠ co a b) : pieceValue p a b = none := by
  unfold pieceValue
  rw [List.findSome?_eq_none_iff]
  intro s hs
  exact constOn_none (h s hs)

theorem pieceValue_mem {a b : ℤ} {v : ℚ} (h : pieceValue p a b = some v) : (co a b, Fn.const v) ∈ p := by
  unfold pieceValue at h
  obtain ⟨⟨i, f⟩, hs, e⟩ := List.exists_of_findSome?_eq_some h
  by_cases hc : i = co a b
  · cases f with
    | const w =>
      simp only [constOn, hc, if_true, Option.some.injEq] at e
      subst e
      rw [← hc]
      exact hs
    | _ => simp [constOn] at e
  · rw [constOn_none hc] at e; cases e

theorem runSum_add {a b c : ℤ} (_hab : a < b) (_hbc : b < c)
    (h : ∀ s ∈ p, ∀ x y, s.1.lower = fin x → s.1.upper = fin y → x < y ∧ (y ≤ b ∨ b ≤ x)) :
    runSum val p a c = runSum val p a b + runSum val p b c := by
  unfold runSum
  induction p with
  | nil => simp
  | cons s p ih =>
    simp only [List.map_cons, List.sum_cons]
    rw [ih (fun s hs => h s (List.mem_cons_of_mem _ hs))]
    have : weight val a c s = weight val a b s + weight val b c s := by
      have hs := h s (by simp)
      unfold weight
      split
      · rename_i x y v h1 h2 h3
        obtain ⟨k1, k2⟩ := hs x y h1 h2
        rcases k2 with k2 | k2
        · have e1 : (a ≤ x ∧ y ≤ c) ↔ (a ≤ x ∧ y ≤ b) := by omega
          have e2 : ¬ (b ≤ x ∧ y ≤ c) := by omega
          rw [if_neg e2, add_zero]
          by_cases hh : a ≤ x ∧ y ≤ b
          · rw [if_pos hh, if_pos (e1.2 hh)]
          · rw [if_neg hh, if_neg (fun h => hh (e1.1 h))]
        · have e1 : (a ≤ x ∧ y ≤ c) ↔ (b ≤ x ∧ y ≤ c) := by omega
          have e2 : ¬ (a ≤ x ∧ y ≤ b) := by omega
          rw [if_neg e2, zero_add]
          by_cases hh : b ≤ x ∧ y ≤ c
          · rw [if_pos hh, if_pos (e1.2 hh)]
          · rw [if_neg hh, if_neg (fun h => hh (e1.1 h))]
      · simp
    rw [this]
    ring

theorem sum_zero {g : CS × Fn → ℚ} : ∀ {U : PF}, (∀ s ∈ U, g s = 0) → (U.map g).sum = 0
  | [], _ => rfl
  | s :: U, h => by
    rw [List.map_cons, List.sum_cons, h s (by simp), sum_zero (fun t ht => h t (List.mem_cons_of_mem _ ht)), add_zero]

theorem runSum_piece (hp : p.Lines) {a b : ℤ} (hab : a < b) {v : ℚ} (h : (co a b, Fn.const v) ∈ p) :
    runSum val p a b = v * (val (b - 1) - val a) := by
  have hz : ∀ s ∈ p, s.1.Disjoint (co a b) → weight val a b s = 0 := by
    intro s hs hd
    unfold weight
    split
    · rename_i x y v h1 h2 h3
      rw [if_neg]
      rintro ⟨k1, k2⟩
      have hh := hp.halfOpen s hs
      have hxy : x < y := by
        have := hh.1
        rw [h1, h2] at this
        simpa [FP.lt_def, leb] using this
      refine hd (fin x) ⟨?_, co_mem.2 ⟨by omega, by omega⟩⟩
      rw [CS.HalfOpen.mem_iff hh, h1, h2]
      simp [FP.lt_def, leb]; omega
    · rfl
  have hd := hp.disj
  obtain ⟨U, V, rfl⟩ := List.append_of_mem h
  have hd' := hd
  unfold Disj at hd'
  rw [List.pairwise_append, List.pairwise_cons] at hd'
  unfold runSum
  rw [List.map_append, List.map_cons, List.sum_append, List.sum_cons, sum_zero, sum_zero]
  · simp [weight, co]
  · intro s hs
    refine hz s (by simp [hs]) ?_
    intro x hx
    exact hd'.2.1.1 s hs x ⟨hx.2, hx.1⟩
  · intro s hs
    exact hz s (by simp [hs]) (hd'.2.2 s hs (co a b, .const v) (by simp))

/-- A step function with the knots `K`. -/
abbrev Const (_ _ : ℤ) (f : Fn) : Prop := ∃ v, f = .const v

/-- What the blocks of an approximation by constants are. -/
def MeanB (val : ℤ → ℚ) (p : PF) (a b : ℤ) (f : Fn) : Prop :=
  f = .const (meanOf val p a b) ∧ (a + 1 < b ∨ pieceValue p a b ≠ none)

/-- The mean absolute error of an approximation by constants. -/
def MeanEr (val : ℤ → ℚ) (p : PF) (a c : ℤ) (e : ℚ) : Prop :=
  ((e * (val (c - 1) - val a) : ℚ) : ℝ) = ∫ x in Set.Ico (val a : ℝ) (val c), |PF.real val p x - meanOf val p a c|

theorem meanOf_sum (hv : StrictMono val) (hp : p.Lines) {a b : ℤ} (hab : a < b)
    (h : a + 1 < b ∨ pieceValue p a b ≠ none) : meanOf val p a b * (val (b - 1) - val a) = runSum val p a b := by
  unfold meanOf
  cases hpv : pieceValue p a b with
  | some v => simp only; rw [runSum_piece hp hab (pieceValue_mem hpv)]
  | none =>
    simp only
    rw [hpv] at h
    have : val a < val (b - 1) := hv (by rcases h with h | h; omega; exact absurd rfl h)
    have : val (b - 1) - val a ≠ 0 := by linarith
    field_simp

theorem mean_framed (h : Framed Const (.const v0) (.const vl) K p) (hs : K.Pairwise (· < ·)) :
    Framed (MeanB val p) (.const v0) (.const vl) K p := by
  have hL := (h.lines hs rfl rfl (fun a b f ⟨v, e⟩ => by rw [e]; rfl)).1
  obtain ⟨a, z, bs, ha, hz, hb, hp⟩ := h
  refine ⟨a, z, bs, ha, hz, ?_, hp⟩
  have hkn := hb.knot hs
  refine hb.imp_mem (fun x y f h1 h2 h3 h4 => ?_)
  obtain ⟨v, rfl⟩ := h4
  have hxy : x < y := by
    obtain ⟨x', y', e1, e2, -⟩ := hkn _ h3
    simp only [co, CS.mk.injEq, FP.fin.injEq] at e1
    obtain ⟨rfl, rfl, -⟩ := e1
    exact e2
  have hpv := pieceValue_some hL.disj hxy (v := v) (by rw [hp]; simp [h3])
  exact ⟨by rw [meanOf, hpv], .inr (by rw [hpv]; simp)⟩

theorem mean_theory (hv : StrictMono val) (hr : Nearest val rnd) (h : Framed Const (.const v0) (.const vl) K p)
    (hs : K.Pairwise (· < ·)) (hg : Generic val p v0 K) :
    Theory val rnd p .constant (.const v0) K (MeanB val p) (MeanEr val p) := by
  obtain ⟨hL, hcov⟩ := h.lines hs rfl rfl (fun a b f ⟨v, e⟩ => by rw [e]; rfl)
  have hin := h.inner hs
  have hst : p.Steps := by
    intro s hs'
    rcases hin s hs' with ⟨a, rfl⟩ | ⟨z, rfl⟩ | ⟨x, y, -, -, e, -⟩
    · exact ⟨_, rfl⟩
    · exact ⟨_, rfl⟩
    · exact e
  refine ⟨?_, ?_, ?_, ?_, ?_⟩
  · rintro a b f g ⟨rfl, -⟩ ⟨rfl, -⟩
    simp [Fn.eq]
  · rintro a b c d f g ⟨rfl, -⟩ ⟨rfl, -⟩
    exact ⟨_, rfl⟩
  · rintro a b c d f g ha hb hc hd hab hbc hcd ⟨rfl, -⟩ ⟨rfl, -⟩
    simp [Fn.eq, (hg a ha b hb hab).2 c hc d hd hbc hcd]
  · rintro a b f ha hb hab ⟨rfl, -⟩
    simp [Fn.eq, (hg a ha b hb hab).1]
  · rintro a b c f g ha hb hc hab hbc ⟨rfl, h1⟩ ⟨rfl, h2⟩
    have hw : ∀ {x y : ℤ}, widthOf val (co x y) = .ok (val (y - 1) - val x) := by
      intro x y; simp [widthOf, co, CS.lowermost, CS.uppermost, FP.dn]
    have hwp : val a < val (c - 1) := hv (by omega)
    have hwn : val (c - 1) - val a ≠ 0 := by linarith
    have hadd : runSum val p a c = runSum val p a b + runSum val p b c := by
      refine runSum_add hab hbc (fun s hs' x y e1 e2 => ?_)
      rcases hin s hs' with ⟨a, rfl⟩ | ⟨z, rfl⟩ | ⟨x', y', e3, e4, -, e5⟩
      · cases e1
      · cases e2
      · rw [e3] at e1 e2
        simp only [co, FP.fin.injEq] at e1 e2
        subst e1 e2
        exact ⟨e4, e5 b hb⟩
    have hnone : pieceValue p a c = none := by
      refine pieceValue_none (fun s hs' e => ?_)
      rcases hin s hs' with ⟨x, rfl⟩ | ⟨z, rfl⟩ | ⟨x', y', e3, e4, -, e5⟩
      · simp [firstI, co] at e
      · simp [lastI, co] at e
      · rw [e] at e3
        simp only [co, CS.mk.injEq, FP.fin.injEq] at e3
        obtain ⟨rfl, rfl, -⟩ := e3
        have := e5 b hb
        omega
    have hmean : meanOf val p a c = meanOf val p a b * (val (b - 1) - val a) / (val (c - 1) - val a) +
        meanOf val p b c * (val (c - 1) - val b) / (val (c - 1) - val a) := by
      rw [meanOf_sum hv hL hab h1, meanOf_sum hv hL hbc h2, ← add_div, ← hadd, meanOf, hnone]
    obtain ⟨e, e1, e2⟩ := meanError_spec (rnd := rnd) hv hr hL (a := a) (c := c) (by omega) (fun n _ _ => hcov n)
      (f := .const (meanOf val p a c)) rfl
    refine ⟨_, construct_eq hab hbc rfl rfl (n := .const (meanOf val p a c)) ?_ e1, ⟨⟨rfl, rfl, h1⟩, ⟨rfl, rfl, h2⟩,
      ⟨rfl, rfl, .inl (by omega)⟩, e, rfl, e2 hst _ rfl⟩, rfl, rfl⟩
    simp only [replaceBy, hw, bind, Except.bind]
    rw [if_neg hwn, hmean]

/-! ### Lines -/

theorem Chord.straight {Y : ℤ → ℚ} {a b : ℤ} {f : Fn} (h : Chord val Y a b f) : f.isStraight = true := by
  rcases h.1 with ⟨v, rfl⟩ | ⟨m, c, rfl⟩ <;> rfl

theorem straight_eq {f g : Fn} (hf : f.isStraight = true) (hg : g.isStraight = true) :
    ∃ v, f.eq g = .ok v ∧ (v = true → ∀ q, f.eval q = g.eval q) ∧
      (∀ q r, q ≠ r → f.eval q = g.eval q → f.eval r = g.eval r → v = true) := by
  have hlin : ∀ {m c m' c' q r : ℚ}, q ≠ r → m * q + c = m' * q + c' → m * r + c = m' * r + c' → m = m' ∧ c = c' := by
    intro m c m' c' q r hqr h1 h2
    have : (m - m') * (q - r) = 0 := by linarith
    rcases mul_eq_zero.1 this with h | h
    · have : m = m' := by linarith
      subst this
      exact ⟨rfl, by linarith⟩
    · exact absurd (by linarith) hqr
  cases f with
  | undef => cases hf
  | quad a b c => cases hf
  | const v =>
    cases g with
    | undef => cases hg
    | quad a b c => cases hg
    | const w =>
      refine ⟨_, rfl, fun h q => ?_, fun q r _ h _ => ?_⟩
      · simp only [decide_eq_true_eq] at h; rw [h]
      · simpa [Fn.eval] using h
    | lin m c =>
      refine ⟨_, rfl, fun h q => ?_, fun q r hqr h1 h2 => ?_⟩
      · simp only [decide_eq_true_eq] at h; simp [Fn.eval, h.1, h.2]
      · simp only [Fn.eval, Option.some.injEq] at h1 h2
        have := hlin (m := 0) (c := v) (m' := m) (c' := c) hqr (by linarith) (by linarith)
        simp [← this.1, ← this.2]
  | lin m c =>
    cases g with
    | undef => cases hg
    | quad a b c => cases hg
    | const w =>
      refine ⟨_, rfl, fun h q => ?_, fun q r hqr h1 h2 => ?_⟩
      · simp only [decide_eq_true_eq] at h; simp [Fn.eval, h.1, h.2]
      · simp only [Fn.eval, Option.some.injEq] at h1 h2
        have := hlin (m := 0) (c := w) (m' := m) (c' := c) hqr (by linarith) (by linarith)
        simp [← this.1, ← this.2]
    | lin m' c' =>
      refine ⟨_, rfl, fun h q => ?_, fun q r hqr h1 h2 => ?_⟩
      · simp only [decide_eq_true_eq] at h; rw [h.1, h.2]
      · simp only [Fn.eval, Option.some.injEq] at h1 h2
        have := hlin hqr h1 h2
        simp [this.1, this.2]

theorem chord_collinear {Y : ℤ → ℚ} {a b : ℤ} {f : Fn} (h : Chord val Y a b f) {c : ℤ}
    (hc : f.eval (val c) = some (Y c)) : Collinear val Y a b c := by
  obtain ⟨h1, h2, h3⟩ := h
  unfold Collinear
  rcases h1 with ⟨v, rfl⟩ | ⟨m, k, rfl⟩
  · simp only [Fn.eval, Option.some.injEq] at h2 h3 hc
    rw [← h2, ← h3, ← hc]; ring
  · simp only [Fn.eval, Option.some.injEq] at h2 h3 hc
    rw [← h2, ← h3, ← hc]; ring

theorem fromPoints_chord (hv : StrictMono val) {Y : ℤ → ℚ} {a c : ℤ} (hac : a < c) :
    ∃ f, Fn.fromPoints (val a, Y a) (val c, Y c) = .ok f ∧ Chord val Y a c f := by
  have h1 : val a < val c := hv hac
  have h2 : val c - val a ≠ 0 := by linarith
  unfold Fn.fromPoints
  simp only
  split_ifs with k1
  all_goals first
    | exact absurd k1.symm h1.ne'
    | exact absurd k1 h1.ne
    | exact absurd k1 (by linarith)
    | skip
  all_goals first
    | (refine ⟨_, rfl, .inr ⟨_, _, rfl⟩, ?_, ?_⟩ <;> (simp only [Fn.eval, Option.some.injEq]; field_simp; ring))
    | (refine ⟨_, rfl, .inl ⟨_, rfl⟩, ?_, ?_⟩ <;> simp only [Fn.eval, Option.some.injEq] <;> linarith)

/-- What the blocks of an approximation by lines are. -/
def LineB (val Y : ℤ → ℚ) (a b : ℤ) (f : Fn) : Prop := a < b ∧ Chord val Y a b f

theorem line_framed {Y : ℤ → ℚ} (h : Framed (Chord val Y) f0 fl K p) (hs : K.Pairwise (· < ·)) :
    Framed (LineB val Y) f0 fl K p := by
  obtain ⟨a, z, bs, ha, hz, hb, hp⟩ := h
  refine ⟨a, z, bs, ha, hz, ?_, hp⟩
  refine hb.imp_mem (fun x y f h1 h2 h3 h4 => ⟨?_, h4⟩)
  obtain ⟨x', y', e1, e2, -⟩ := hb.knot hs _ h3
  simp only [co, CS.mk.injEq, FP.fin.injEq] at e1
  obtain ⟨rfl, rfl, -⟩ := e1
  exact e2

theorem line_theory (hv : StrictMono val) (hr : Nearest val rnd) {Y : ℤ → ℚ}
    (h : Framed (Chord val Y) (.const v0) (.const vl) K p) (hs : K.Pairwise (· < ·)) (hg : GenericLines val Y v0 K) :
    Theory val rnd p .linear (.const v0) K (LineB val Y) (fun _ _ _ => True) := by
  obtain ⟨hL, hcov⟩ := h.lines hs rfl rfl (fun a b f hf => hf.straight)
  refine ⟨?_, ?_, ?_, ?_, ?_⟩
  · rintro a b f g ⟨hab, hf⟩ ⟨-, hg'⟩
    obtain ⟨v, e, -, e1⟩ := straight_eq hf.straight hg'.straight
    rw [e, e1 (val a) (val b) (hv hab).ne (by rw [hf.2.1, hg'.2.1]) (by rw [hf.2.2, hg'.2.2])]
  · rintro a b c d f g ⟨-, hf⟩ ⟨-, hg'⟩
    obtain ⟨v, e, -⟩ := straight_eq hf.straight hg'.straight
    exact ⟨v, e⟩
  · rintro a b c d f g ha hb hc hd hab hbc hcd ⟨-, hf⟩ ⟨-, hg'⟩
    obtain ⟨v, e, e1, -⟩ := straight_eq hf.straight hg'.straight
    cases v with
    | false => exact e
    | true =>
      exfalso
      refine (hg a ha b hb hab).2 c hc d hd hbc hcd ⟨chord_collinear hf ?_, chord_collinear hf ?_⟩
      · rw [e1 rfl]; exact hg'.2.1
      · rw [e1 rfl]; exact hg'.2.2
  · rintro a b f ha hb hab ⟨-, hf⟩
    obtain ⟨v, e, e1, -⟩ := straight_eq (f := .const v0) rfl hf.straight
    cases v with
    | false => exact e
    | true =>
      exfalso
      refine (hg a ha b hb hab).1 ⟨?_, ?_⟩
      · have := e1 rfl (val a)
        rw [hf.2.1] at this
        simpa [Fn.eval] using this.symm
      · have := e1 rfl (val b)
        rw [hf.2.2] at this
        simpa [Fn.eval] using this.symm
  · rintro a b c f g ha hb hc hab hbc ⟨-, hf⟩ ⟨-, hg'⟩
    obtain ⟨n, n1, n2⟩ := fromPoints_chord hv (Y := Y) (hab.trans hbc)
    obtain ⟨e, e1, -⟩ := meanError_spec (rnd := rnd) hv hr hL (a := a) (c := c) (by omega) (fun n _ _ => hcov n) n2.straight
    exact ⟨_, construct_eq (kind := .linear) hab hbc hf.2.1 hg'.2.2 (n := n) n1 e1, ⟨⟨rfl, hab, hf⟩, ⟨rfl, hbc, hg'⟩,
      ⟨rfl, hab.trans hbc, n2⟩, e, rfl, trivial⟩, rfl, rfl⟩

end PF

end Verif.Fun
