import Verif.Functions.CombineLemmas3
import Mathlib.Tactic.FieldSimp
import Mathlib.Tactic.Ring

/-!
# The choice that `combine` makes
-/

namespace Verif.Fun

open Iv Iv.FP

namespace PF

/-- Constants and lines as lines. -/
theorem straight_form {a : Fn} (ha : a.isStraight = true) : ∃ m c : ℚ, (∀ q, a.eval q = some (m * q + c)) ∧
    (∀ q, a.valueAt (.fin q) = some (.fin (m * q + c))) ∧ ((∃ v, a = .const v) → m = 0) := by
  cases a with
  | const v => exact ⟨0, v, by simp [Fn.eval], by simp [Fn.valueAt], fun _ => rfl⟩
  | lin m c => exact ⟨m, c, by simp [Fn.eval], by simp [Fn.valueAt], fun ⟨v, h⟩ => by cases h⟩
  | quad _ _ _ => simp [Fn.isStraight] at ha
  | undef => simp [Fn.isStraight] at ha

/-- Lines of different slope cross where they are equal. -/
theorem intersection_form {a b : Fn} {X : Cross} (h : a.intersection b = .ok X) {m c m' c' : ℚ}
    (ha : ∀ q, a.eval q = some (m * q + c)) (hb : ∀ q, b.eval q = some (m' * q + c')) (hm : m ≠ m') :
    ∃ x, X = .one x ∧ m * x + c = m' * x + c' := by
  have key : ∀ {u v : ℚ} {fn : Fn}, (∀ q, fn.eval q = some (u * q + v)) →
      (∀ w, fn = .const w → u = 0 ∧ v = w) ∧ (∀ n d, fn = .lin n d → u = n ∧ v = d) := by
    intro u v fn hfn
    constructor
    · rintro w rfl
      have h0 := hfn 0
      have h1 := hfn 1
      simp [Fn.eval] at h0 h1
      constructor <;> linarith
    · rintro n d rfl
      have h0 := hfn 0
      have h1 := hfn 1
      simp [Fn.eval] at h0 h1
      constructor <;> linarith
  cases a with
  | quad _ _ _ => simp [Fn.intersection] at h
  | undef => cases b <;> simp [Fn.intersection] at h
  | const v =>
    obtain ⟨rfl, rfl⟩ := (key ha).1 v rfl
    cases b with
    | quad _ _ _ => simp [Fn.intersection] at h
    | undef => simp [Fn.intersection] at h
    | const w => obtain ⟨rfl, rfl⟩ := (key hb).1 w rfl; exact absurd rfl hm
    | lin n d =>
      obtain ⟨rfl, rfl⟩ := (key hb).2 n d rfl
      simp only [Fn.intersection, if_neg (Ne.symm hm)] at h
      cases h
      have h' : m' ≠ 0 := Ne.symm hm
      refine ⟨_, rfl, ?_⟩
      field_simp
      ring
  | lin n d =>
    obtain ⟨rfl, rfl⟩ := (key ha).2 n d rfl
    cases b with
    | quad _ _ _ => simp [Fn.intersection] at h
    | undef => simp [Fn.intersection] at h
    | const w =>
      obtain ⟨rfl, rfl⟩ := (key hb).1 w rfl
      simp only [Fn.intersection, if_neg hm] at h
      cases h
      refine ⟨_, rfl, ?_⟩
      field_simp
      ring
    | lin n' d' =>
      obtain ⟨rfl, rfl⟩ := (key hb).2 n' d' rfl
      simp only [Fn.intersection, if_neg hm] at h
      cases h
      have h' : m' - m ≠ 0 := sub_ne_zero.2 (Ne.symm hm)
      refine ⟨_, rfl, ?_⟩
      field_simp
      ring

theorem choose_or (op : Op) (delta : Fn.Fl) (a b : Fn) : choose op delta a b = a ∨ choose op delta a b = b := by
  unfold choose
  by_cases h : Fn.flNonpos (if op = .max then Fn.flNeg delta else delta) = true
  · exact .inl (if_pos h)
  · exact .inr (if_neg h)

/-- Choosing by a difference of the right sign. -/
theorem choose_exact {op : Op} {a b : Fn} {q x y d : ℚ} (hx : a.eval q = some x) (hy : b.eval q = some y)
    (hd : 0 < d * (x - y) ∨ x = y ∨ d = x - y) :
    (choose op (some (.fin d)) a b).eval q = some (op.of x y) := by
  have h1 : d ≤ 0 → x ≠ y → x ≤ y := by
    intro h1 h2
    rcases hd with h | h | h
    · by_contra hc
      rw [not_le] at hc
      have := mul_nonpos_of_nonpos_of_nonneg h1 (sub_nonneg.2 (le_of_lt hc))
      linarith
    · exact absurd h h2
    · linarith
  have h2 : ¬ d ≤ 0 → x ≠ y → y ≤ x := by
    intro h1 h2
    rw [not_le] at h1
    rcases hd with h | h | h
    · by_contra hc
      rw [not_le] at hc
      have := mul_nonpos_of_nonneg_of_nonpos (le_of_lt h1) (sub_nonpos.2 (le_of_lt hc))
      linarith
    · exact absurd h h2
    · linarith
  by_cases hxy : x = y
  · subst hxy
    have h4 : op.of x x = x := by cases op <;> simp [Op.of]
    rw [h4]
    rcases choose_or op (some (.fin d)) a b with h | h <;> rw [h] <;> assumption
  cases op with
  | min =>
    simp only [choose, reduceCtorEq, if_false, Fn.flNonpos, decide_eq_true_eq, Op.of]
    by_cases hdd : d ≤ 0
    · rw [if_pos hdd, hx, min_eq_left (h1 hdd hxy)]
    · rw [if_neg hdd, hy, min_eq_right (h2 hdd hxy)]
  | max =>
    simp only [choose, if_true, Fn.flNeg, Fn.flNonpos, decide_eq_true_eq, Op.of]
    by_cases hdd : -d ≤ 0
    · rw [if_pos hdd, hx, max_eq_left]
      rcases hd with h | h | h
      · by_contra hc
        rw [not_le] at hc
        have : d * (x - y) ≤ 0 := mul_nonpos_of_nonneg_of_nonpos (by linarith) (by linarith)
        linarith
      · exact absurd h hxy
      · linarith
    · rw [if_neg hdd, hy, max_eq_right (h1 (by linarith) hxy)]

/-- A root of a line between two numbers. -/
theorem between_root {M C q r x0 : ℚ} (h0 : M * x0 + C = 0) (hM : M ≠ 0) (hn : M * q + C ≠ 0)
    (h : (M * q + C) * (M * r + C) ≤ 0) (hqr : q < r) : q < x0 ∧ x0 ≤ r := by
  have e : C = -(M * x0) := by linarith
  subst e
  have h2 : M * M * ((q - x0) * (r - x0)) ≤ 0 := by nlinarith
  have hMM : 0 < M * M := mul_self_pos.2 hM
  have h3 : (q - x0) * (r - x0) ≤ 0 := by
    by_contra hc
    rw [not_le] at hc
    have := mul_pos hMM hc
    linarith
  have h4 : q ≠ x0 := by
    rintro rfl
    apply hn
    ring
  constructor
  · by_contra hc
    rw [not_lt] at hc
    have hc' : 0 < q - x0 := by
      have := lt_of_le_of_ne hc (Ne.symm h4)
      linarith
    have := mul_pos hc' (show (0 : ℚ) < r - x0 by linarith)
    linarith
  · by_contra hc
    rw [not_le] at hc
    have := mul_pos_of_neg_of_neg (show q - x0 < 0 by linarith) (show r - x0 < 0 by linarith)
    linarith

theorem between_root' {M C q r x0 : ℚ} (h0 : M * x0 + C = 0) (hM : M ≠ 0) (hn : M * q + C ≠ 0)
    (h : (M * q + C) * (M * r + C) ≤ 0) (hqr : r < q) : r ≤ x0 ∧ x0 < q := by
  have := between_root (M := -M) (C := C) (q := -q) (r := -r) (x0 := -x0) (by linarith) (neg_ne_zero.2 hM)
    (by rwa [neg_mul_neg]) (by rw [neg_mul_neg, neg_mul_neg]; exact h) (by linarith)
  constructor <;> linarith

/-- Around a root the line does not have one sign. -/
theorem sign_root {M C q r x0 : ℚ} (h0 : M * x0 + C = 0) (h1 : q ≤ x0) (h2 : x0 ≤ r) :
    (M * q + C) * (M * r + C) ≤ 0 := by
  have e : C = -(M * x0) := by linarith
  subst e
  have h3 : (x0 - q) * (r - x0) ≥ 0 := mul_nonneg (by linarith) (by linarith)
  have h4 : 0 ≤ M * M := mul_self_nonneg M
  have := mul_nonneg h4 h3
  nlinarith

variable {val : ℤ → ℚ} {rnd : ℚ → ℤ} {op : Op} {f g : PF}

/-- The value of a piece of the result: the extremum, or the two functions meet between a float and its neighbour. -/
theorem Chosen.value (hv : StrictMono val) (hr : Nearest val rnd) {p : CS × Fn} {s t : CS × Fn} {c : FP} {X : Cross}
    (hp : p.1.HalfOpen) (hs : s.2.isStraight = true) (ht : t.2.isStraight = true)
    (hends : p.1.lower = ninf ∨ p.1.upper = pinf → (∃ v, s.2 = .const v) ∧ ∃ v, t.2 = .const v)
    (hc : center val rnd p.1 = some c) (hX : s.2.intersection t.2 = .ok X) (hsp : splitAt rnd p.1 X = none)
    (hch : p.2 = choose op (deltaAt val s.2 t.2 (some c)) s.2 t.2) {n : ℤ} (hn : p.1.Mem (fin n)) {x y : ℚ}
    (hx : s.2.eval (val n) = some x) (hy : t.2.eval (val n) = some y) :
    p.2.eval (val n) = some (op.of x y) ∨ (¬ ((∃ v, s.2 = .const v) ∧ ∃ v, t.2 = .const v)) ∧
      ∃ k x' y', (k = n + 1 ∨ k = n - 1) ∧ p.1.Mem (fin k) ∧ s.2.eval (val k) = some x' ∧ t.2.eval (val k) = some y' ∧
        (x - y) * (x' - y') ≤ 0 := by
  rw [hch]
  by_cases hcc : (∃ v, s.2 = .const v) ∧ ∃ v, t.2 = .const v
  · left
    obtain ⟨⟨v, hv⟩, w, hw⟩ := hcc
    rw [hv] at hx ⊢
    rw [hw] at hy ⊢
    simp only [Fn.eval, Option.some.injEq] at hx hy
    subst hx hy
    have : deltaAt val (.const v) (.const w) (some c) = some (.fin (v - w)) := by
      simp [deltaAt, Fn.valueAt, Fn.flNeg, Fn.flAdd, sub_eq_add_neg]
    rw [this]
    exact choose_exact rfl rfl (.inr (.inr rfl))
  have hw : ¬ (p.1.lower = ninf ∧ p.1.upper = pinf) := fun h => hcc (hends (.inl h.1))
  rcases center_cases hv hr hp hw with ⟨h1, -⟩ | ⟨h1, -⟩ | ⟨a, b, k, hl, hu, hlm, hum, hab, hck, hak, hkb, hin⟩
  · exact absurd (hends (.inl h1)) hcc
  · exact absurd (hends (.inr h1)) hcc
  rw [hc] at hck
  obtain rfl := Option.some.inj hck
  have hmem : ∀ j : ℤ, p.1.Mem (fin j) ↔ a ≤ j ∧ j ≤ b := by
    intro j
    rw [hp.mem_iff, hl, hu]
    simp [FP.le_def, FP.lt_def, leb]
    omega
  obtain ⟨m, d, s1, s2, -⟩ := straight_form hs
  obtain ⟨m', d', t1, t2, -⟩ := straight_form ht
  have hdel : deltaAt val s.2 t.2 (some (fin k)) = some (.fin ((m - m') * val k + (d - d'))) := by
    simp only [deltaAt, pos, s2, t2, Fn.flNeg, Fn.flAdd, Option.some.injEq, XQ.fin.injEq]
    ring
  have hD : x - y = (m - m') * val n + (d - d') := by
    rw [s1] at hx
    rw [t1] at hy
    cases hx
    cases hy
    ring
  rw [hdel]
  obtain ⟨hn1, hn2⟩ := (hmem n).1 hn
  have hval : ∀ j : ℤ, ∃ x' y', s.2.eval (val j) = some x' ∧ t.2.eval (val j) = some y' ∧
      x' - y' = (m - m') * val j + (d - d') := fun j => ⟨_, _, s1 _, t1 _, by ring⟩
  by_cases hkn : k = n
  · left
    subst hkn
    exact choose_exact hx hy (.inr (.inr hD.symm))
  by_cases hpos : 0 < ((m - m') * val k + (d - d')) * (x - y)
  · exact .inl (choose_exact hx hy (.inl hpos))
  by_cases hxy : x = y
  · exact .inl (choose_exact hx hy (.inr (.inl hxy)))
  rw [not_lt] at hpos
  right
  refine ⟨hcc, ?_⟩
  have hclose : ∀ j, (j = n + 1 ∨ j = n - 1) → (a ≤ j ∧ j ≤ b) → (x - y) * ((m - m') * val j + (d - d')) ≤ 0 →
      ∃ k x' y', (k = n + 1 ∨ k = n - 1) ∧ p.1.Mem (fin k) ∧ s.2.eval (val k) = some x' ∧ t.2.eval (val k) = some y' ∧
        (x - y) * (x' - y') ≤ 0 := by
    intro j h1 h2 h3
    obtain ⟨x', y', e1, e2, e3⟩ := hval j
    exact ⟨j, x', y', h1, (hmem j).2 h2, e1, e2, by rw [e3]; exact h3⟩
  by_cases hab2 : a + 2 ≤ b
  · obtain ⟨hk1, hk2⟩ := hin hab2
    have hn0 : (m - m') * val n + (d - d') ≠ 0 := by rw [← hD]; exact sub_ne_zero.2 hxy
    have hprod : ((m - m') * val n + (d - d')) * ((m - m') * val k + (d - d')) ≤ 0 := by
      rw [← hD, mul_comm]; exact hpos
    have hM : m ≠ m' := by
      rintro rfl
      rw [sub_self, zero_mul, zero_mul, zero_add] at hprod
      rw [sub_self, zero_mul, zero_add] at hn0
      have : 0 < (d - d') * (d - d') := mul_self_pos.2 hn0
      linarith
    obtain ⟨x0, rfl, hx0⟩ := intersection_form hX s1 t1 hM
    have hroot : (m - m') * x0 + (d - d') = 0 := by linarith
    have hM' : m - m' ≠ 0 := sub_ne_zero.2 hM
    have hno : ∀ j, j = rnd x0 → a ≤ j → j ≤ b → j = a ∨ j = b := by
      rintro j rfl h1 h2
      by_contra hc
      rw [not_or] at hc
      have hcv : p.1.containsValue (fin (rnd x0)) = true := (CS.containsValue_iff ..).2 ((hmem _).2 ⟨h1, h2⟩)
      simp only [splitAt, hcv, hlm, hum, true_and] at hsp
      rw [if_pos ⟨by simp [hc.1], by simp [hc.2]⟩] at hsp
      cases hsp
    rcases lt_or_gt_of_ne (fun h => hkn h.symm : n ≠ k) with hnk | hnk
    · obtain ⟨r1, r2⟩ := between_root hroot hM' hn0 hprod (hv hnk)
      have r3 : n ≤ rnd x0 := hr.ge hv (le_of_lt r1)
      have r4 : rnd x0 ≤ k := hr.le hv r2
      have r5 : rnd x0 = a := by
        rcases hno _ rfl (by omega) (by omega) with h | h
        · exact h
        · omega
      have r6 : n = a := by omega
      refine hclose (n + 1) (.inl rfl) ⟨by omega, by omega⟩ ?_
      rw [hD]
      refine sign_root hroot (le_of_lt r1) ?_
      by_contra hc
      rw [not_le] at hc
      have := hr.ge hv (le_of_lt hc)
      omega
    · obtain ⟨r1, r2⟩ := between_root' hroot hM' hn0 hprod (hv hnk)
      have r3 : rnd x0 ≤ n := hr.le hv (le_of_lt r2)
      have r4 : k ≤ rnd x0 := hr.ge hv r1
      have r5 : rnd x0 = b := by
        rcases hno _ rfl (by omega) (by omega) with h | h
        · omega
        · exact h
      have r6 : n = b := by omega
      refine hclose (n - 1) (.inr rfl) ⟨by omega, by omega⟩ ?_
      rw [hD, mul_comm]
      refine sign_root hroot ?_ (le_of_lt r2)
      by_contra hc
      rw [not_le] at hc
      have := hr.le hv (le_of_lt hc)
      omega
  · refine hclose k (by omega) ⟨hak, hkb⟩ ?_
    rw [mul_comm]
    exact hpos

/-- `combine` returns; every piece of the result is chosen, and the result is defined where both functions are. -/
theorem combine_spec (hv : StrictMono val) (hr : Nearest val rnd) (hf : ∀ s ∈ f, s.1.HalfOpen) (hfd : f.Disj)
    (hfs : ∀ s ∈ f, s.2.isStraight = true) (hfn : f ≠ []) (hg : ∀ s ∈ g, s.1.HalfOpen) (hgd : g.Disj)
    (hgs : ∀ s ∈ g, s.2.isStraight = true) (hgn : g ≠ [])
    (hc : f.Connected → g.Connected)
    (hR : ∀ s ∈ f, ∀ t ∈ g, ¬ (s.1.lower = ninf ∧ s.1.upper = pinf ∧ t.1.lower = ninf ∧ t.1.upper = pinf)) :
    ∃ q r : PF, combine val rnd op f g = .ok r ∧ (∀ p ∈ q, Chosen val rnd op f g p) ∧
      (∀ n v, r.Value val n v ↔ q.Value val n v) ∧ q.Disj ∧ r.Disj ∧ (∀ p ∈ r, p.1.HalfOpen) ∧
      (∀ n : ℤ, q.Covers n ↔ f.Covers n ∧ g.Covers n) := by
  obtain ⟨d1, d2, d3, d, is, e1, e2, e3, e4, e5, k1, k2, k3, k4⟩ :=
    combine_intervals hf hfn hg hgn hc (cutPoints f ++ cutPoints g)
  have hgood : ∀ i ∈ is, Good f g i ∧ ¬ (i.lower = ninf ∧ i.upper = pinf) := by
    intro i hi
    obtain ⟨s, hs, his⟩ := part_of_piece hf (k1 i hi) (fun n hn => ((k3 n).1 ⟨i, hi, hn⟩).1)
      (fun p hp => k4 i hi p (List.mem_append.2 (.inl hp)))
    obtain ⟨t, ht, hit'⟩ := part_of_piece hg (k1 i hi) (fun n hn => ((k3 n).1 ⟨i, hi, hn⟩).2)
      (fun p hp => k4 i hi p (List.mem_append.2 (.inr hp)))
    refine ⟨⟨k1 i hi, ⟨s, hs, his⟩, t, ht, hit'⟩, ?_⟩
    rintro ⟨h1, h2⟩
    obtain ⟨a1, a2⟩ := his
    obtain ⟨b1, b2⟩ := hit'
    rw [h1] at a1 b1
    rw [h2] at a2 b2
    exact hR s hs t ht ⟨le_antisymm a1 (ninf_le _), le_antisymm (le_pinf _) a2, le_antisymm b1 (ninf_le _),
      le_antisymm (le_pinf _) b2⟩
  obtain ⟨q, h1, h2, h3, h4⟩ := combineLoop_spec (op := op) hv hr hf hfd hfs hg hgd hgs (3 * is.length) is hgood k2 (by
    clear e5 k1 k2 k3 k4 hgood
    induction is with
    | nil => simp
    | cons i is ih =>
      have := need_le (rnd := rnd) (f := f) (g := g) i
      simp only [List.map_cons, List.sum_cons, List.length_cons]
      omega)
  have hqs : ∀ p ∈ q, p.2.isStraight = true := by
    intro p hp
    obtain ⟨-, s, hs, t, ht, -, -, c, X, -, -, -, e⟩ := h2 p hp
    rcases choose_or op (deltaAt val s.2 t.2 (some c)) s.2 t.2 with h | h
    · rw [e, h]; exact hfs s hs
    · rw [e, h]; exact hgs t ht
  have hqh : ∀ p ∈ q, p.1.HalfOpen := fun p hp => (h2 p hp).1
  have hqne : ∀ p ∈ q, Ne p.1 := fun p hp => norm_ne (hqh p hp)
  have hqd := sorted_disj h3
  obtain ⟨r, hr'⟩ := simplify_ok hqne hqd (by
    intro s hs t ht
    have h1 := hqs s hs
    have h2 := hqs t ht
    cases hs' : s.2 <;> cases ht' : t.2 <;> rw [hs'] at h1 <;> rw [ht'] at h2 <;> simp [Fn.isStraight] at h1 h2 <;>
      simp [Fn.eq])
  obtain ⟨v1, v2, v3⟩ := simplify_spec (val := val) hqne hr'
  refine ⟨q, r, ?_, h2, v1, hqd, sorted_disj v3, simplify_halfOpen hqh hr', ?_⟩
  · simp only [combine, e1, e2, e3, e4, e5, h1, hr', bind, Except.bind]
  · intro n
    rw [← k3]
    exact h4 (fin n)

end PF

end Verif.Fun
