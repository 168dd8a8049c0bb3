import Verif.Intervals.Lemmas6

/-! # chop, equality, round trips -/

namespace Verif.Iv
open FP

/-- The head of a chopped interval that is closed on the left starts where the interval starts. -/
theorem CS.chopLoop_head : ∀ (ps : List FP) (rem : CS), rem.WF → rem.left = .inc →
    ∀ c cs, rem.chopLoop ps = c :: cs → c.lower = rem.lower ∧ c.left = .inc
  | [], rem, _, hl, c, cs, h => by
    simp only [chopLoop] at h
    split at h
    · simp at h
    · simp only [List.cons.injEq] at h
      obtain ⟨rfl, -⟩ := h
      exact ⟨rfl, hl⟩
  | p :: ps, rem, hw, hl, c, cs, h => by
    simp only [chopLoop] at h
    split at h
    · rename_i hp
      rw [containsValue_iff] at hp
      have hw' : ({ rem with lower := p, left := .inc } : CS).WF := by
        revert hp hw; simp only [Mem, WF]; grind
      split at h
      · rename_i he
        -- the cut is empty: `p` is the lower bound
        have hpl : p = rem.lower := by
          obtain ⟨l, u, a, b⟩ := rem
          simp only at hl; subst hl
          revert hp he hw
          simp only [Mem, isempty, isclosed, itype, Br.code, WF]
          grind
        split at h
        · simp at h
        · have := chopLoop_head ps _ hw' rfl c cs h
          rw [this.1, this.2]; exact ⟨hpl, rfl⟩
      · simp only [List.cons.injEq] at h
        obtain ⟨rfl, -⟩ := h
        exact ⟨rfl, hl⟩
    · exact chopLoop_head ps rem hw hl c cs h

theorem CS.chopLoop_spec : ∀ (ps : List FP) (rem : CS), rem.WF → ps.Pairwise (· ≤ ·) →
    (∀ x, RS.Mem (rem.chopLoop ps) x ↔ rem.Mem x) ∧
    (∀ c ∈ rem.chopLoop ps, c.WF ∧ ∃ x, c.Mem x) ∧
    (rem.chopLoop ps).Pairwise RS.Before ∧
    (∀ c ∈ rem.chopLoop ps, ∀ p ∈ ps, ∀ x y, c.Mem x → c.Mem y → ¬ (x < p ∧ p ≤ y)) ∧
    (rem.chopLoop ps).IsChain
      (fun a b => a.upper = b.lower ∧ a.upper ∈ ps ∧ a.right = .exc ∧ b.left = .inc)
  | [], rem, hw, _ => by
    simp only [chopLoop]
    by_cases he : rem.isempty = true
    · have := (isempty_iff rem hw).1 he
      simp only [he, if_true]
      refine ⟨fun x => ⟨fun ⟨_, h, _⟩ => by simp at h, fun h => absurd ⟨x, h⟩ this⟩, by simp, by simp,
        by simp, by simp⟩
    · rw [if_neg he]
      rw [Bool.not_eq_true] at he
      exact ⟨fun x => RS.mem_single _ _, by simpa using ⟨hw, exists_mem hw he⟩, by simp, by simp, by simp⟩
  | p :: ps, rem, hw, hs => by
    obtain ⟨hs1, hs2⟩ := List.pairwise_cons.1 hs
    by_cases hp : rem.containsValue p = true
    · have hp' := (containsValue_iff rem p).1 hp
      have hwr : ({ rem with lower := p, left := .inc } : CS).WF := by
        revert hp' hw; simp only [Mem, WF]; grind
      have hpr : ({ rem with lower := p, left := .inc } : CS).Mem p := by
        revert hp'; simp only [Mem]; grind
      have hre : ({ rem with lower := p, left := .inc } : CS).isempty = false :=
        isempty_false_of_mem hpr
      have hwc : (⟨rem.lower, p, rem.left, .exc⟩ : CS).WF := by
        revert hp' hw; simp only [Mem, WF]; grind
      have hcm : ∀ x, (⟨rem.lower, p, rem.left, .exc⟩ : CS).Mem x ↔ rem.Mem x ∧ x < p := by
        intro x; revert hp'; simp only [Mem]; grind
      have hrm : ∀ x, ({ rem with lower := p, left := .inc } : CS).Mem x ↔ rem.Mem x ∧ p ≤ x := by
        intro x; revert hp'; simp only [Mem]; grind
      obtain ⟨i1, i2, i3, i4, i5⟩ := chopLoop_spec ps _ hwr hs2
      have hhead := chopLoop_head ps _ hwr rfl
      have hrest : ∀ c ∈ ({ rem with lower := p, left := .inc } : CS).chopLoop ps, ∀ x, c.Mem x →
          rem.Mem x ∧ p ≤ x := fun c hc x hx => (hrm x).1 ((i1 x).1 ⟨c, hc, hx⟩)
      simp only [chopLoop, hp, hre, if_true, if_false, Bool.false_eq_true]
      have hrest4 : ∀ c ∈ ({ rem with lower := p, left := .inc } : CS).chopLoop ps, ∀ q ∈ p :: ps,
          ∀ x y, c.Mem x → c.Mem y → ¬ (x < q ∧ q ≤ y) := by
        intro c hc q hq x y hx hy
        rcases List.mem_cons.1 hq with rfl | hq
        · exact fun h => absurd (hrest c hc x hx).2 (not_le.2 h.1)
        · exact i4 c hc q hq x y hx hy
      by_cases hce : (⟨rem.lower, p, rem.left, .exc⟩ : CS).isempty = true
      · have hcn := (isempty_iff _ hwc).1 hce
        rw [if_pos hce]
        refine ⟨fun x => ?_, i2, i3, hrest4, i5.imp ?_⟩
        · rw [i1, hrm]
          refine ⟨fun h => h.1, fun h => ⟨h, ?_⟩⟩
          by_contra hc
          exact hcn ⟨x, (hcm x).2 ⟨h, not_le.1 hc⟩⟩
        · intro a b h; exact ⟨h.1, by simp [h.2.1], h.2.2⟩
      · rw [if_neg hce]
        rw [Bool.not_eq_true] at hce
        refine ⟨fun x => ?_, ?_, ?_, ?_, ?_⟩
        · rw [RS.mem_cons, i1, hcm, hrm]
          grind
        · intro c hc
          rcases List.mem_cons.1 hc with rfl | hc
          · exact ⟨hwc, exists_mem hwc hce⟩
          · exact i2 c hc
        · rw [List.pairwise_cons]
          refine ⟨fun c hc x y hx hy => ?_, i3⟩
          exact lt_of_lt_of_le ((hcm x).1 hx).2 (hrest c hc y hy).2
        · intro c hc
          rcases List.mem_cons.1 hc with rfl | hc
          · intro q hq x y hx hy h
            have hqp : p ≤ q := by
              rcases List.mem_cons.1 hq with rfl | hq
              · exact le_refl _
              · exact hs1 q hq
            have := ((hcm y).1 hy).2
            exact absurd (le_trans hqp h.2) (not_le.2 this)
          · exact hrest4 c hc
        · cases hl : ({ rem with lower := p, left := .inc } : CS).chopLoop ps with
          | nil => simp
          | cons c cs =>
            have hh := hhead c cs hl
            rw [hl] at i5
            refine List.isChain_cons_cons.2 ⟨⟨hh.1.symm, by simp, rfl, hh.2⟩, i5.imp ?_⟩
            intro a b h; exact ⟨h.1, by simp [h.2.1], h.2.2⟩
    · have hp' : ¬ rem.Mem p := fun h => hp ((containsValue_iff rem p).2 h)
      obtain ⟨i1, i2, i3, i4, i5⟩ := chopLoop_spec ps rem hw hs2
      simp only [chopLoop, hp]
      refine ⟨i1, i2, i3, ?_, i5.imp ?_⟩
      · intro c hc q hq x y hx hy
        rcases List.mem_cons.1 hq with rfl | hq
        · intro h
          have h1 := (i1 x).1 ⟨c, hc, hx⟩
          have h2 := (i1 y).1 ⟨c, hc, hy⟩
          exact hp' (RS.convex h1 h2 (le_of_lt h.1) h.2)
        · exact i4 c hc q hq x y hx hy
      · intro a b h; exact ⟨h.1, by simp [h.2.1], h.2.2⟩

/-- Equality of regular intervals is equality of their members. -/
theorem CS.eq_iff {a b : CS} (ha : a.WF) (hb : b.WF) (ra : a.Reg) (rb : b.Reg) :
    a.eq b = true ↔ ∀ x, a.Mem x ↔ b.Mem x := by
  constructor
  · intro h x
    simp only [eq, Bool.or_eq_true, Bool.and_eq_true, decide_eq_true_eq] at h
    rcases h with ⟨h1, h2⟩ | ⟨h1, h2⟩
    · have e : ∀ c : CS, c.Reg → (c.Mem x ↔ c.lowermost ≤ x ∧ x ≤ c.uppermost ∧ x ≠ ninf ∧ x ≠ pinf) := by
        intro c hc
        obtain ⟨l, u, p, q⟩ := c
        revert hc
        have := ninf_le x
        have := le_pinf x
        have := ninf_le l
        have := le_pinf u
        cases p <;> cases q <;> simp only [Mem, lowermost, uppermost, Reg, if_true, if_false, reduceCtorEq] <;>
          grind [up_ninf, up_pinf, dn_ninf, dn_pinf]
      rw [e a ra, e b rb, h1, h2]
    · have h1 := (isempty_iff a ha).1 h1
      have h2 := (isempty_iff b hb).1 h2
      exact ⟨fun h => absurd ⟨x, h⟩ h1, fun h => absurd ⟨x, h⟩ h2⟩
  · intro h
    simp only [eq, Bool.or_eq_true, Bool.and_eq_true, decide_eq_true_eq]
    by_cases hae : a.isempty = true
    · right
      refine ⟨hae, ?_⟩
      rw [isempty_iff b hb]
      rintro ⟨x, hx⟩
      exact (isempty_iff a ha).1 hae ⟨x, (h x).2 hx⟩
    · rw [Bool.not_eq_true] at hae
      have hbe : b.isempty = false := by
        obtain ⟨x, hx⟩ := exists_mem ha hae
        exact isempty_false_of_mem ((h x).1 hx)
      left
      have h1 := containsInterval_complete hb hbe (fun x hx => (h x).2 hx)
      have h2 := containsInterval_complete ha hae (fun x hx => (h x).1 hx)
      simp only [containsInterval, hae, hbe] at h1 h2
      grind

/-- `intersects` is exact unless the receiver is empty or the overlap lies between neighbouring
floats. -/
theorem CS.intersects_iff (A B : CS) (hA : A.WF) (hB : B.WF) (he : A.isempty = false)
    (hn : (max A.lower B.lower).up ≠ min A.upper B.upper) :
    A.intersects B = true ↔ ∃ x, A.Mem x ∧ B.Mem x := by
  refine ⟨fun h => ?_, fun ⟨x, h1, h2⟩ => CS.intersects_of_mem h1 h2⟩
  have hBe : B.isempty = false := by
    rw [← Bool.not_eq_true]; intro hb; simp [CS.intersects, hb] at h
  have h1 : ¬ (B.lower > A.upper ∨ B.upper < A.lower) := by
    intro hb; simp only [CS.intersects, hBe, hb] at h; simp at h
  have h2 : ¬ (A.lower = B.upper ∧ (B.right = .exc ∨ A.left = .exc)) := by
    intro hb; simp only [CS.intersects, hBe, hb] at h; simp at h
  have h3 : ¬ (A.upper = B.lower ∧ (A.right = .exc ∨ B.left = .exc)) := by
    intro hb; simp only [CS.intersects, hBe, hb] at h; simp at h
  clear h
  simp only [CS.WF] at hA hB
  have key : max A.lower B.lower ≤ min A.upper B.upper := by grind
  rcases lt_or_eq_of_le key with hlt | heq
  · generalize hm : max A.lower B.lower = m at *
    generalize hM : min A.upper B.upper = M at *
    have : ∃ x, m < x ∧ x < M := FP.exists_between (by
      have := FP.up_le hlt
      grind)
    obtain ⟨x, hx1, hx2⟩ := this
    refine ⟨x, ?_⟩
    simp only [CS.Mem]; grind
  · refine ⟨max A.lower B.lower, ?_⟩
    have cl : ∀ C : CS, C.isempty = false → C.lower = C.upper → C.left = .inc ∧ C.right = .inc := by
      rintro ⟨l, u, a, b⟩ h1 h2
      simp only at h2; subst h2
      revert h1
      cases a <;> cases b <;> simp [CS.isempty, CS.isclosed, CS.itype, Br.code]
    have cA := cl A he
    have cB := cl B hBe
    clear he hBe hn
    simp only [CS.Mem]
    rcases le_total A.lower B.lower with h | h <;> rcases le_total A.upper B.upper with h' | h' <;>
      simp only [max_eq_right h, min_eq_left h', max_eq_left h, min_eq_right h'] at heq key ⊢ <;>
      clear cl <;> cases hal : A.left <;> cases har : A.right <;> cases hbl : B.left <;>
      cases hbr : B.right <;> simp only [hal, har, hbl, hbr, reduceCtorEq] at * <;> grind

end Verif.Iv
