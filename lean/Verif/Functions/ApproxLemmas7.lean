import Verif.Functions.Approx
import Verif.Functions.Props6
import Verif.Functions.Lemmas5

/-!
# The mean absolute error of a replacement
-/

namespace Verif.Fun

open Iv Iv.FP

namespace PF

variable {val : ℤ → ℚ} {rnd : ℚ → ℤ} {p : PF}

/-! ### The pieces within an interval -/

theorem crop_pieces {r : PF} {a c : ℤ} (hac : a < c) (hp : ∀ s ∈ p, s.1.HalfOpen) (hd : p.Disj)
    (h : crop p (co a c) = .ok r) : r.Disj ∧ ∀ t ∈ r, t.1.HalfOpen ∧ (∃ s ∈ p, t.2 = s.2) ∧
      ∀ n : ℤ, t.1.Mem (fin n) → a ≤ n ∧ n < c := by
  have hco : (co a c).HalfOpen := ⟨by simp [co, FP.lt_def, leb]; omega, rfl, .inr ⟨by simp [co], rfl⟩⟩
  have hone : ∀ s ∈ p, ∀ i, s.1.intersects (co a c) = true → s.1.intersectionEnds (co a c) (some .inc) (some .exc) = .ok i →
      i.HalfOpen ∧ ∀ x : ℤ, i.Mem (fin x) ↔ s.1.Mem (fin x) ∧ (co a c).Mem (fin x) := by
    intro s hs i hi he
    obtain ⟨j, e1, e2⟩ := intersectionEnds_mem (hp s hs).wf hco.wf (some .inc) (some .exc)
    rw [he] at e1
    cases e1
    refine ⟨?_, e2⟩
    rcases CS.halfOpen_intersection (hp s hs) hco with ⟨g1, -⟩ | ⟨g1, g2, g3, br, g4, g5⟩
    · rw [g1] at hi; cases hi
    · simp only [CS.intersectionEnds, hi, not_true_eq_false, if_false, g4, bind, Except.bind, Except.ok.injEq] at he
      have hl : max s.1.lower (co a c).lower ≠ ninf := by
        intro hn
        have := le_max_right s.1.lower (co a c).lower
        rw [hn] at this
        simp [co, FP.le_def, leb] at this
      have hbr : br = .inc := by
        rcases g5.2.2 with hh | hh
        · exact absurd hh.1 hl
        · exact hh.2
      subst hbr
      have : i = ⟨max s.1.lower (co a c).lower, min s.1.upper (co a c).upper, .inc, .exc⟩ := by
        rw [← he]; simp [CS.convertEnds]
      rw [this]; exact g5
  unfold crop at h
  rw [mapM_ok_iff] at h
  have h2 : List.Forall₂ (fun s t : CS × Fn => t.1.HalfOpen ∧ t.2 = s.2 ∧ (s ∈ p) ∧
      ∀ x : ℤ, t.1.Mem (fin x) ↔ s.1.Mem (fin x) ∧ (co a c).Mem (fin x)) (p.filter (fun s => s.1.intersects (co a c))) r := by
    have hmem : ∀ s ∈ p.filter (fun s => s.1.intersects (co a c)), s ∈ p ∧ s.1.intersects (co a c) = true := by
      intro s hs
      simpa using List.mem_filter.1 hs
    generalize p.filter (fun s => s.1.intersects (co a c)) = q at h hmem
    induction h with
    | nil => exact .nil
    | @cons s t q r hst hq ih =>
      refine .cons ?_ (ih (fun s hs => hmem s (List.mem_cons_of_mem _ hs)))
      obtain ⟨m1, m2⟩ := hmem s (by simp)
      cases hi : s.1.intersectionEnds (co a c) (some .inc) (some .exc) with
      | error e => simp [hi, Except.map] at hst
      | ok i =>
        simp only [hi, Except.map, Except.ok.injEq] at hst
        obtain ⟨k1, k2⟩ := hone s m1 i m2 hi
        subst hst
        exact ⟨k1, rfl, m1, k2⟩
  constructor
  · have hdq : (p.filter (fun s => s.1.intersects (co a c))).Pairwise (fun s t => s.1.Disjoint t.1) := hd.sublist List.filter_sublist
    unfold Disj
    clear h
    generalize p.filter (fun s => s.1.intersects (co a c)) = q at h2 hdq
    induction h2 with
    | nil => exact .nil
    | @cons s t q r hst hq ih =>
      rw [List.pairwise_cons] at hdq ⊢
      refine ⟨?_, ih hdq.2⟩
      intro t' ht'
      obtain ⟨s', hs', k1, k2, k3, k4⟩ := forall₂_mem_right hq ht'
      obtain ⟨l1, l2, l3, l4⟩ := hst
      rintro x ⟨m1, m2⟩
      obtain ⟨n, rfl⟩ := norm_mem_fin l1 m1
      exact hdq.1 s' hs' (fin n) ⟨((l4 n).1 m1).1, ((k4 n).1 m2).1⟩
  · intro t ht
    obtain ⟨s, hs, k1, k2, k3, k4⟩ := forall₂_mem_right h2 ht
    refine ⟨k1, ⟨s, k3, k2⟩, fun n hn => ?_⟩
    have := ((k4 n).1 hn).2
    simp [co, CS.Mem, FP.lt_def, leb] at this
    omega

/-! ### The functions of a minimum or maximum -/

theorem atPos_mem {x : FP} {g : Fn} (h : p.atPos x = some g) : ∃ s ∈ p, s.2 = g := by
  unfold atPos at h
  rw [Option.map_eq_some_iff] at h
  obtain ⟨s, hs, rfl⟩ := h
  exact ⟨s, List.mem_of_find?_eq_some hs, rfl⟩

theorem atCenter_mem {c : Option FP} {g : Fn} (h : p.atCenter c = some g) : ∃ s ∈ p, s.2 = g := by
  cases c with
  | none => simp [atCenter] at h
  | some x => exact atPos_mem (by simpa [atCenter] using h)

theorem combineLoop_fns {P : Fn → Prop} {op : Op} {f g : PF} (hf : ∀ s ∈ f, P s.2) (hg : ∀ s ∈ g, P s.2) :
    ∀ {n : ℕ} {is : List CS} {r : PF}, combineLoop val rnd op f g n is = .ok r → ∀ s ∈ r, P s.2 := by
  intro n
  induction n with
  | zero =>
    intro is r h
    cases is with
    | nil => simp only [combineLoop, Except.ok.injEq] at h; subst h; simp
    | cons i q => simp [combineLoop] at h
  | succ n ih =>
    intro is r h
    cases is with
    | nil => simp only [combineLoop, Except.ok.injEq] at h; subst h; simp
    | cons i q =>
      simp only [combineLoop] at h
      cases ha : atCenter f (center val rnd i) with
      | none => simp [ha] at h
      | some a =>
        cases hb : atCenter g (center val rnd i) with
        | none => simp [ha, hb] at h
        | some b =>
          simp only [ha, hb] at h
          obtain ⟨sa, hsa, rfl⟩ := atCenter_mem ha
          obtain ⟨sb, hsb, rfl⟩ := atCenter_mem hb
          by_cases hs : (sa.2.isStraight && sb.2.isStraight) = true
          · rw [if_pos hs] at h
            cases hX : sa.2.intersection sb.2 with
            | error e => simp [hX, bind, Except.bind] at h
            | ok X =>
              simp only [hX, bind, Except.bind] at h
              cases hk : splitAt rnd i X with
              | some k => simp only [hk] at h; exact ih h
              | none =>
                simp only [hk] at h
                cases hr : combineLoop val rnd op f g n q with
                | error e => simp [hr] at h
                | ok r' =>
                  simp only [hr, pure, Except.pure, Except.ok.injEq] at h
                  subst h
                  intro s hs'
                  rcases List.mem_cons.1 hs' with rfl | hs'
                  · simp only
                    rcases choose_or op (deltaAt val sa.2 sb.2 (center val rnd i)) sa.2 sb.2 with e | e <;> rw [e]
                    · exact hf sa hsa
                    · exact hg sb hsb
                  · exact ih hr s hs'
          · rw [if_neg hs] at h; cases h

theorem combine_fns {P : Fn → Prop} {op : Op} {f g r : PF} (hf : ∀ s ∈ f, P s.2) (hg : ∀ s ∈ g, P s.2)
    (h : combine val rnd op f g = .ok r) : ∀ s ∈ r, P s.2 := by
  simp only [combine, bind, Except.bind] at h
  cases h1 : domain f with
  | error e => simp [h1] at h
  | ok d1 =>
    cases h2 : domain g with
    | error e => simp [h1, h2] at h
    | ok d2 =>
      cases h3 : nsIntersection d1 d2 with
      | error e => simp [h1, h2, h3] at h
      | ok d3 =>
        cases h4 : nsSimplify d3 with
        | error e => simp [h1, h2, h3, h4] at h
        | ok d =>
          cases h5 : nsChop d (cutPoints f ++ cutPoints g) with
          | error e => simp [h1, h2, h3, h4, h5] at h
          | ok is =>
            cases h6 : combineLoop val rnd op f g (3 * is.length) is with
            | error e => simp [h1, h2, h3, h4, h5, h6] at h
            | ok q =>
              simp only [h1, h2, h3, h4, h5, h6] at h
              exact simplify_fns (P := P) (combineLoop_fns hf hg h6) h

/-- What the absolute value consists of. -/
theorem absolute_pieces {f r : PF} (hv : StrictMono val) (hr : Nearest val rnd) (hf : f.Lines) (hfe : f.ConstEnds)
    (hb : f.Bounded) (h : absolute val rnd f = .ok r) : r.Disj ∧ (∀ s ∈ r, s.1.HalfOpen) ∧
      (∀ s ∈ r, s.2.isStraight = true) ∧ (f.Steps → r.Steps) := by
  obtain ⟨g, h1, hg, hge, hgs, hev⟩ := negated hv hf hfe
  have hdef : ∀ n, (∃ v, g.eval val n = .ok v) ↔ ∃ v, f.eval val n = .ok v := by
    intro n
    rw [hev]
    cases f.eval val n <;> simp [Except.map]
  have hcov : ∀ (p : PF), p.Disj → ∀ n, (∃ v, p.eval val n = .ok v) ↔ p.Covers n := by
    intro p hp n
    constructor
    · rintro ⟨v, h⟩
      obtain ⟨s, hs, hm, -⟩ := (eval_ok_iff hp).1 h
      exact ⟨s, hs, hm⟩
    · rintro ⟨s, hs, hm⟩
      exact ⟨_, (eval_ok_iff hp).2 ⟨s, hs, hm, rfl⟩⟩
  have hcc : ∀ n, g.Covers n ↔ f.Covers n := fun n => by rw [← hcov g hg.disj, ← hcov f hf.disj, hdef]
  have hconn : f.Connected → g.Connected := by
    intro h a b c hab hbc ha hc'
    rw [hcc] at ha hc' ⊢
    exact h a b c hab hbc ha hc'
  have hR : ∀ s ∈ f, ∀ t ∈ g, ¬ (s.1.lower = ninf ∧ s.1.upper = pinf ∧ t.1.lower = ninf ∧ t.1.upper = pinf) := by
    rintro s hs t ht ⟨h1, h2, h3, h4⟩
    exact hf.notWhole hb s hs ⟨h1, h2⟩
  obtain ⟨q, r', e, -, -, -, hrd, hrh, -⟩ := combine_spec (op := .max) hv hr hf.halfOpen hf.disj hf.isStraight hf.nonempty
    hg.halfOpen hg.disj hg.isStraight hg.nonempty hconn hR
  simp only [absolute, h1, bind, Except.bind] at h
  rw [h] at e
  cases e
  exact ⟨hrd, hrh, combine_fns (P := fun f => f.isStraight = true) hf.isStraight hg.isStraight h,
    fun hs => combine_fns (P := fun f => ∃ v, f = .const v) hs (hgs hs) h⟩

/-! ### Subtracting a function -/

theorem minus_one {f : Fn} (hf : f.isStraight = true) : ∃ g, f.mul (.const (-1)) = .ok g ∧ g.isStraight = true ∧
    (∀ q, ∃ x, f.eval q = some x ∧ g.eval q = some (-x)) ∧ ((∃ v, f = .const v) → ∃ v, g = .const v) := by
  cases f with
  | undef => cases hf
  | quad a b c => cases hf
  | const v =>
    refine ⟨_, rfl, rfl, fun q => ⟨v, rfl, ?_⟩, fun _ => ⟨_, rfl⟩⟩
    simp only [Fn.eval]
    by_cases h : v = 0 <;> simp [h]
  | lin m c =>
    refine ⟨_, rfl, rfl, fun q => ⟨_, rfl, ?_⟩, fun ⟨v, h⟩ => by cases h⟩
    simp only [Fn.eval, Option.some.injEq]
    ring

theorem plus_straight {f g : Fn} (hf : f.isStraight = true) (hg : g.isStraight = true) : ∃ h, f.plus g = .ok h ∧
    h.isStraight = true ∧ (∀ q, ∃ x y, f.eval q = some x ∧ g.eval q = some y ∧ h.eval q = some (x + y)) ∧
    ((∃ v, f = .const v) → (∃ v, g = .const v) → ∃ v, h = .const v) := by
  have hsimp : ∀ m c : ℚ, (Fn.lin m c).simplify.isStraight = true ∧ ∀ q, (Fn.lin m c).simplify.eval q = some (m * q + c) := by
    intro m c
    unfold Fn.simplify
    by_cases h : m = 0 <;> simp [h, Fn.isStraight, Fn.eval]
  cases f with
  | undef => cases hf
  | quad a b c => cases hf
  | const v =>
    cases g with
    | undef => cases hg
    | quad a b c => cases hg
    | const w => exact ⟨_, rfl, rfl, fun q => ⟨v, w, rfl, rfl, rfl⟩, fun _ _ => ⟨_, rfl⟩⟩
    | lin m c =>
      refine ⟨_, rfl, (hsimp m (c + v)).1, fun q => ⟨_, _, rfl, rfl, ?_⟩, fun _ ⟨v, h⟩ => by cases h⟩
      rw [(hsimp m (c + v)).2]
      congr 1; ring
  | lin m c =>
    cases g with
    | undef => cases hg
    | quad a b c => cases hg
    | const w =>
      refine ⟨_, rfl, (hsimp m (c + w)).1, fun q => ⟨_, _, rfl, rfl, ?_⟩, fun ⟨v, h⟩ => by cases h⟩
      rw [(hsimp m (c + w)).2]
      congr 1; ring
    | lin m' c' =>
      refine ⟨_, rfl, (hsimp (m + m') (c + c')).1, fun q => ⟨_, _, rfl, rfl, ?_⟩, fun ⟨v, h⟩ => by cases h⟩
      rw [(hsimp (m + m') (c + c')).2]
      congr 1; ring

theorem addFn_straight {g : Fn} (hg : g.isStraight = true) : ∀ {r : PF}, (∀ s ∈ r, s.2.isStraight = true) →
    ∃ e, addFn r g = .ok e ∧ List.Forall₂ (fun s t : CS × Fn => t.1 = s.1 ∧ t.2.isStraight = true ∧
      (∀ q, ∃ x y, s.2.eval q = some x ∧ g.eval q = some y ∧ t.2.eval q = some (x + y)) ∧
      ((∃ v, s.2 = .const v) → (∃ v, g = .const v) → ∃ v, t.2 = .const v)) r e := by
  intro r hr
  have hadd : ∀ r : PF, addFn r g = r.mapM (fun s => (s.2.plus g).map (fun g => (s.1, g))) := by
    intro r
    cases g <;> first | rfl | cases hg
  rw [hadd]
  induction r with
  | nil => exact ⟨[], rfl, .nil⟩
  | cons s r ih =>
    obtain ⟨e, h1, h2⟩ := ih (fun t ht => hr t (List.mem_cons_of_mem _ ht))
    obtain ⟨h, k1, k2, k3, k4⟩ := plus_straight (hr s (by simp)) hg
    refine ⟨(s.1, h) :: e, ?_, .cons ⟨rfl, k2, k3, k4⟩ h2⟩
    have k1' : (s.2.plus g).map (fun g => (s.1, g)) = .ok (s.1, h) := by rw [k1]; rfl
    rw [List.mapM_cons, k1', h1]
    rfl

end PF

end Verif.Fun
