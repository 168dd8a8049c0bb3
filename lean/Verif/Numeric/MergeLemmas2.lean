import Verif.Numeric.MergeLemmas
import Verif.Numeric.CropLemmas6

/-! # Merging cdfs: the sweep -/

namespace Verif.Num

open Iv Iv.FP Fun

/-- What an entry of `lower` contributes at `n`. -/
def Entry.up (val : ℤ → ℚ) (n : ℤ) (e : Entry) : ℚ :=
  if e.at' ≤ n then e.slope * (val n - val e.at') + e.jump else 0

/-- What an entry of `upper` takes away at `n`. -/
def Entry.down (val : ℤ → ℚ) (n : ℤ) (e : Entry) : ℚ :=
  if e.at' ≤ n then e.slope * (val n - val e.at') else 0

/-- The slope of an entry that starts at `n` or before. -/
def Entry.act (n : ℤ) (e : Entry) : ℚ := if e.at' ≤ n then e.slope else 0

/-- The total of all entries at `n`. -/
def total (val : ℤ → ℚ) (lo up : List Entry) (n : ℤ) : ℚ :=
  (lo.map (Entry.up val n)).sum - (up.map (Entry.down val n)).sum

/-- The total slope after `n`. -/
def active (lo up : List Entry) (n : ℤ) : ℚ := (lo.map (Entry.act n)).sum - (up.map (Entry.act n)).sum

theorem up_at {val : ℤ → ℚ} {n k : ℤ} : ∀ {l : List Entry}, (∀ e ∈ l, e.at' = k) →
    (l.map (Entry.up val n)).sum =
      if k ≤ n then (l.map Entry.slope).sum * (val n - val k) + (l.map Entry.jump).sum else 0
  | [], _ => by simp
  | e :: r, h => by
    have ih := up_at (val := val) (n := n) (k := k) (l := r) (fun x hx => h x (by simp [hx]))
    simp only [List.map_cons, List.sum_cons, ih, Entry.up, h e (by simp)]
    split <;> ring

theorem down_at {val : ℤ → ℚ} {n k : ℤ} : ∀ {l : List Entry}, (∀ e ∈ l, e.at' = k) →
    (l.map (Entry.down val n)).sum = if k ≤ n then (l.map Entry.slope).sum * (val n - val k) else 0
  | [], _ => by simp
  | e :: r, h => by
    have ih := down_at (val := val) (n := n) (k := k) (l := r) (fun x hx => h x (by simp [hx]))
    simp only [List.map_cons, List.sum_cons, ih, Entry.down, h e (by simp)]
    split <;> ring

theorem act_at {n k : ℤ} : ∀ {l : List Entry}, (∀ e ∈ l, e.at' = k) →
    (l.map (Entry.act n)).sum = if k ≤ n then (l.map Entry.slope).sum else 0
  | [], _ => by simp
  | e :: r, h => by
    have ih := act_at (n := n) (k := k) (l := r) (fun x hx => h x (by simp [hx]))
    simp only [List.map_cons, List.sum_cons, ih, Entry.act, h e (by simp)]
    split <;> ring

theorem map_sum_zero {f : Entry → ℚ} {l : List Entry} (h : ∀ e ∈ l, f e = 0) : (l.map f).sum = 0 := by
  induction l with
  | nil => rfl
  | cons a r ih => simp [h a (by simp), ih (fun x hx => h x (by simp [hx]))]

theorem map_sum_nonneg {f : Entry → ℚ} {l : List Entry} (h : ∀ e ∈ l, 0 ≤ f e) : 0 ≤ (l.map f).sum := by
  induction l with
  | nil => simp
  | cons a r ih =>
    simp only [List.map_cons, List.sum_cons]
    exact add_nonneg (h a (by simp)) (ih (fun x hx => h x (by simp [hx])))

theorem map_sum_pos {f : Entry → ℚ} {l : List Entry} (h : ∀ e ∈ l, 0 ≤ f e) {x : Entry} (hx : x ∈ l)
    (hp : 0 < f x) : 0 < (l.map f).sum := by
  induction l with
  | nil => simp at hx
  | cons a r ih =>
    simp only [List.map_cons, List.sum_cons]
    rcases List.mem_cons.1 hx with rfl | hx
    · exact add_pos_of_pos_of_nonneg hp (map_sum_nonneg (fun y hy => h y (by simp [hy])))
    · exact add_pos_of_nonneg_of_pos (h a (by simp)) (ih (fun y hy => h y (by simp [hy])) hx)

theorem total_before {val : ℤ → ℚ} {lo up : List Entry} {n : ℤ} (h : ∀ e ∈ lo ++ up, n < e.at') :
    total val lo up n = 0 := by
  rw [total, map_sum_zero, map_sum_zero, sub_zero]
  · intro e he; have := h e (by simp [he]); rw [Entry.down, if_neg (by omega)]
  · intro e he; have := h e (by simp [he]); rw [Entry.up, if_neg (by omega)]

theorem active_before {lo up : List Entry} {n : ℤ} (h : ∀ e ∈ lo ++ up, n < e.at') : active lo up n = 0 := by
  rw [active, map_sum_zero, map_sum_zero, sub_zero]
  · intro e he; have := h e (by simp [he]); rw [Entry.act, if_neg (by omega)]
  · intro e he; have := h e (by simp [he]); rw [Entry.act, if_neg (by omega)]

theorem newFn_pl {m c : ℚ} (hm : 0 ≤ m) : IsPl (newFn m c) := by
  unfold newFn
  split
  · rename_i h; rw [abs_of_nonneg hm] at h; exact lt_trans (by norm_num [tol]) h
  · trivial

theorem newFn_coeffs {m c : ℚ} (h : m = 0 ∨ tol < m) : coeffs (newFn m c) = (m, c) := by
  have htol : (0 : ℚ) < tol := by norm_num [tol]
  unfold newFn
  rcases h with rfl | h
  · rw [if_neg (by simp [htol.le])]; rfl
  · rw [if_pos (by rwa [abs_of_pos (htol.trans h)])]; rfl

theorem ev_coeffs {f : Fn} (h : IsPl f) (x : ℚ) : ev f x = (coeffs f).1 * x + (coeffs f).2 := by
  cases f with
  | const v => simp [ev, Fn.eval, coeffs]
  | lin m c => simp [ev, Fn.eval, coeffs]
  | undef => cases h
  | quad a b c => cases h

theorem tileAt_split {n : ℤ} {r : List (ℤ × Fn)} (hr : ∀ s ∈ r, n < s.1) : ∀ {l : List (ℤ × Fn)} {f : Fn},
    (∀ s ∈ l, s.1 ≤ n) → tileAt f (l ++ r) n = lastOf f l
  | [], f, _ => by rw [List.nil_append, tileAt_before hr]; rfl
  | (k, g) :: t, f, h => by
    have := h (k, g) (by simp)
    simp only at this
    simp only [List.cons_append, tileAt, if_neg (not_lt.2 this), lastOf]
    exact tileAt_split hr (fun s hs => h s (by simp [hs]))

theorem sweep_tile {val : ℤ → ℚ} (hval : StrictMono val) : ∀ (fuel : ℕ) (lo up : List Entry) (m c : ℚ)
    (l : List (ℤ × Fn)) (u : FP), lo.length + up.length ≤ fuel → (∀ e ∈ lo, e.Good) → (∀ e ∈ up, e.Slope) →
    Sorted lo → Sorted up → Knots l → (∀ s ∈ l, ∀ e ∈ lo ++ up, s.1 < e.at') → (∀ s ∈ l, IsPl s.2) →
    coeffs (lastOf (.const 0) l) = (m, c) → IsPl (lastOf (.const 0) l) → 0 ≤ m →
    ((m = 0 ∧ c = 0) ∨ ∃ p0, (∀ e ∈ lo ++ up, p0 < e.at') ∧ 0 ≤ m * val p0 + c) →
    (∀ n, m + active lo up n = 0 ∨ tol < m + active lo up n) →
    ∃ l' u', sweep val fuel lo up m c (tile ninf (.const 0) l u) = .ok (tile ninf (.const 0) (l ++ l') u') ∧
      Knots (l ++ l') ∧ (∀ s ∈ l', ∃ e ∈ lo ++ up, s.1 = e.at') ∧ (∀ s ∈ l', IsPl s.2) ∧
      (∀ n, (∀ s ∈ l, s.1 ≤ n) →
        ev (tileAt (.const 0) (l ++ l') n) (val n) = m * val n + c + total val lo up n) ∧
      (∀ k v, (k, Fn.const v) ∈ l' → m * val (k - 1) + c + total val lo up (k - 1) < v) ∧
      (coeffs (lastOf (.const 0) (l ++ l'))).1 =
        m + (lo.map Entry.slope).sum - (up.map Entry.slope).sum ∧
      (∀ K, lo ++ up ≠ [] → (∀ e ∈ lo ++ up, e.at' ≤ K) →
        (0 < m + active lo up (K - 1) ∨ ∃ j ∈ lo, j.at' = K ∧ 0 < j.jump) →
        m + (lo.map Entry.slope).sum - (up.map Entry.slope).sum = 0 → u' = pinf ∧ l' ≠ []) ∧
      (∀ n, (∀ s ∈ l, s.1 ≤ n) → (coeffs (tileAt (.const 0) (l ++ l') n)).1 = m + active lo up n) := by
  have htol : (0 : ℚ) < tol := by norm_num [tol]
  intro fuel
  induction fuel with
  | zero =>
    intro lo up m c l u hlen hlo hup hsl hsu hk hkl hpl hco hlp hm hinv hact
    have h1 : lo = [] := List.eq_nil_of_length_eq_zero (by omega)
    have h2 : up = [] := List.eq_nil_of_length_eq_zero (by omega)
    subst h1; subst h2
    refine ⟨[], u, by simp [sweep], by simpa using hk, by simp, by simp, ?_, by simp, by simp [hco], by simp, ?_⟩
    · intro n hn
      rw [List.append_nil, tileAt_last hn, ev_coeffs hlp, hco]; simp [total]
    · intro n hn
      rw [List.append_nil, tileAt_last hn, hco]; simp [active]
  | succ fuel ih =>
    intro lo up m c l u hlen hlo hup hsl hsu hk hkl hpl hco hlp hm hinv hact
    by_cases hne : lo ++ up = []
    · obtain ⟨rfl, rfl⟩ := List.append_eq_nil_iff.1 hne
      refine ⟨[], u, by simp [sweep], by simpa using hk, by simp, by simp, ?_, by simp, by simp [hco], by simp, ?_⟩
      · intro n hn
        rw [List.append_nil, tileAt_last hn, ev_coeffs hlp, hco]; simp [total]
      · intro n hn
        rw [List.append_nil, tileAt_last hn, hco]; simp [active]
    · obtain ⟨k, lo1, lo2, up1, up2, p, m1, e1, e2, hne1, a1, a2, b1, b2, t1, t2⟩ :=
        round (m := m) hlo hup hsl hsu hne
      set s1 := (lo1.map Entry.slope).sum with hs1
      set s2 := (up1.map Entry.slope).sum with hs2
      set off := (lo1.map Entry.jump).sum with hoff
      -- everything is at `k` or later
      have hmin : ∀ e ∈ lo ++ up, k ≤ e.at' := by
        intro e he
        simp only [e1, e2, List.mem_append] at he
        rcases he with (h | h) | (h | h)
        · exact (a1 e h).ge
        · exact (a2 e h).le
        · exact (b1 e h).ge
        · exact (b2 e h).le
      have hrest : ∀ e ∈ lo2 ++ up2, k < e.at' := by
        intro e he
        rcases List.mem_append.1 he with h | h
        · exact a2 e h
        · exact b2 e h
      have hex : ∃ e ∈ lo ++ up, e.at' = k := by
        obtain ⟨e, r, he⟩ := List.exists_cons_of_ne_nil hne1
        have : e ∈ lo1 ++ up1 := by rw [he]; simp
        refine ⟨e, ?_, ?_⟩
        · simp only [e1, e2, List.mem_append]; rcases List.mem_append.1 this with h | h <;> simp [h]
        · rcases List.mem_append.1 this with h | h
          · exact a1 e h
          · exact b1 e h
      have hoff0 : 0 ≤ off := map_sum_nonneg fun e he => (hlo e (by simp [e1, he])).jump_nonneg
      -- the sums
      have hactk : ∀ n, k ≤ n → m + active lo up n = m + s1 - s2 + active lo2 up2 n := by
        intro n hn
        simp only [active, e1, e2, List.map_append, List.sum_append, act_at a1, act_at b1, if_pos hn]
        ring
      have hact2 : ∀ n, n ≤ k → active lo2 up2 n = 0 := fun n hn =>
        active_before fun e he => lt_of_le_of_lt hn (hrest e he)
      have hm1 : m + s1 - s2 = 0 ∨ tol < m + s1 - s2 := by
        have := hact k
        rwa [hactk k le_rfl, hact2 k le_rfl, add_zero] at this
      have hm' : (if |m + s1 - s2| > tol then m + s1 - s2 else 0) = m + s1 - s2 := by
        rcases hm1 with h | h
        · rw [h]; simp
        · rw [if_pos (by rwa [abs_of_pos (htol.trans h)])]
      have hm1n : 0 ≤ m + s1 - s2 := by
        rcases hm1 with h | h
        · exact h.ge
        · exact (htol.trans h).le
      set m2 := m + s1 - s2 with hm2
      set c2 := m * val k + c - m2 * val k + off with hc2
      have htot : ∀ n, k ≤ n → m * val n + c + total val lo up n = m2 * val n + c2 + total val lo2 up2 n := by
        intro n hn
        simp only [total, e1, e2, List.map_append, List.sum_append, up_at a1, down_at b1, if_pos hn, hc2, hm2,
          ← hs1, ← hs2, ← hoff]
        ring
      have hy : 0 ≤ m * val k + c := by
        rcases hinv with ⟨rfl, rfl⟩ | ⟨p0, hp, h0⟩
        · simp
        · obtain ⟨e, he, hek⟩ := hex
          have := hval (hek ▸ hp e he)
          nlinarith
      have hy2 : 0 < m → 0 < m * val k + c := by
        intro hmp
        rcases hinv with ⟨rfl, rfl⟩ | ⟨p0, hp, h0⟩
        · exact absurd hmp (lt_irrefl _)
        · obtain ⟨e, he, hek⟩ := hex
          have := hval (hek ▸ hp e he)
          nlinarith
      have hv2 : m2 * val k + c2 = m * val k + c + off := by rw [hc2]; ring
      have hact3 : ∀ n, m2 + active lo2 up2 n = 0 ∨ tol < m2 + active lo2 up2 n := by
        intro n
        rcases le_or_gt k n with hn | hn
        · rw [← hactk n hn]; exact hact n
        · rw [hact2 n hn.le, add_zero]; exact hm1
      have hl2 : ∀ e ∈ lo2, e.Good := fun e he => hlo e (by simp [e1, he])
      have hu2 : ∀ e ∈ up2, e.Slope := fun e he => hup e (by simp [e2, he])
      have hsl2 : Sorted lo2 := by
        have := hsl; rw [e1] at this; exact (List.pairwise_append.1 this).2.1
      have hsu2 : Sorted up2 := by
        have := hsu; rw [e2] at this; exact (List.pairwise_append.1 this).2.1
      have hlen2 : lo2.length + up2.length ≤ fuel := by
        have h1 : 0 < (lo1 ++ up1).length := List.length_pos_iff.2 hne1
        simp only [e1, e2, List.length_append] at hlen h1
        omega
      have hkk : ∀ s ∈ l, s.1 < k := by
        obtain ⟨e, he, hek⟩ := hex
        intro s hs
        exact hek ▸ hkl s hs e he
      have hsum : m2 + (lo2.map Entry.slope).sum - (up2.map Entry.slope).sum =
          m + (lo.map Entry.slope).sum - (up.map Entry.slope).sum := by
        simp only [e1, e2, List.map_append, List.sum_append, hm2, ← hs1, ← hs2]; ring
      have hsw : sweep val (fuel + 1) lo up m c (tile ninf (.const 0) l u) =
          (extend (tile ninf (.const 0) l u) k m2 c2).bind (sweep val fuel lo2 up2 m2 c2) := by
        have : sweep val (fuel + 1) lo up m c (tile ninf (.const 0) l u) = _ := sweep.eq_3 _ _ _ _ _ _ _ (by
          intro h1 h2; exact hne (by rw [h1, h2]; rfl))
        rw [this]
        simp only [t1, t2, bind, Except.bind, hm', ← hc2]
      -- the remaining rounds see the pivot `k`
      have hinv2 : (m2 = 0 ∧ c2 = 0) ∨ ∃ p0, (∀ e ∈ lo2 ++ up2, p0 < e.at') ∧ 0 ≤ m2 * val p0 + c2 :=
        .inr ⟨k, hrest, by rw [hv2]; exact add_nonneg hy hoff0⟩
      have hbefore : ∀ n, n < k → total val lo up n = 0 := fun n hn =>
        total_before fun e he => lt_of_lt_of_le hn (hmin e he)
      have hKrest : ∀ K, lo2 ++ up2 ≠ [] → (∀ e ∈ lo ++ up, e.at' ≤ K) →
          (0 < m + active lo up (K - 1) ∨ ∃ j ∈ lo, j.at' = K ∧ 0 < j.jump) →
          (∀ e ∈ lo2 ++ up2, e.at' ≤ K) ∧
            (0 < m2 + active lo2 up2 (K - 1) ∨ ∃ j ∈ lo2, j.at' = K ∧ 0 < j.jump) := by
        intro K hne2 hK hcase
        have hsub : ∀ e ∈ lo2 ++ up2, e ∈ lo ++ up := by
          intro e he
          simp only [e1, e2, List.mem_append] at he ⊢
          rcases he with h | h <;> simp [h]
        have hkK : k < K := by
          obtain ⟨e, r, he⟩ := List.exists_cons_of_ne_nil hne2
          have hm : e ∈ lo2 ++ up2 := by rw [he]; simp
          exact lt_of_lt_of_le (hrest e hm) (hK e (hsub e hm))
        refine ⟨fun e he => hK e (hsub e he), ?_⟩
        rcases hcase with h | ⟨j, hj, hjK, hjp⟩
        · left; rwa [hactk (K - 1) (by omega)] at h
        · right
          rw [e1] at hj
          rcases List.mem_append.1 hj with h | h
          · have := a1 j h; omega
          · exact ⟨j, h, hjK, hjp⟩
      by_cases hch : (c2 ≠ 0 ∨ m2 ≠ 0) ∧ (m2 ≠ m ∨ c2 ≠ c)
      · -- a new piece
        have hext : extend (tile ninf (.const 0) l u) k m2 c2 =
            .ok (tile ninf (.const 0) (l ++ [(k, newFn m2 c2)]) pinf) := by
          simp only [extend, lastFn_tile, bind, Except.bind, hco]
          rw [if_pos hch, setUpper_tile, tile_append]
        have hk2 : Knots (l ++ [(k, newFn m2 c2)]) := by
          refine List.pairwise_append.2 ⟨hk, by simp, ?_⟩
          intro s hs t ht
          simp only [List.mem_singleton] at ht
          subst ht; exact hkk s hs
        obtain ⟨l', u', r1, r2, r3, r4, r5, r6, r7, r8, r9⟩ := ih lo2 up2 m2 c2 (l ++ [(k, newFn m2 c2)]) pinf hlen2
          hl2 hu2 hsl2 hsu2 hk2
          (by
            intro s hs e he
            rcases List.mem_append.1 hs with h | h
            · exact (hkk s h).trans (hrest e he)
            · simp only [List.mem_singleton] at h; subst h; exact hrest e he)
          (by
            intro s hs
            rcases List.mem_append.1 hs with h | h
            · exact hpl s h
            · simp only [List.mem_singleton] at h; subst h; exact newFn_pl hm1n)
          (by rw [lastOf_append]; exact newFn_coeffs hm1)
          (by rw [lastOf_append]; exact newFn_pl hm1n) hm1n hinv2 hact3
        have happ : l ++ [(k, newFn m2 c2)] ++ l' = l ++ ((k, newFn m2 c2) :: l') := by simp
        rw [happ] at r1 r2 r5 r7 r9
        refine ⟨(k, newFn m2 c2) :: l', u', by rw [hsw, hext]; exact r1, r2, ?_, ?_, ?_, ?_, by rw [r7, hsum], ?_, ?_⟩
        · intro s hs
          rcases List.mem_cons.1 hs with rfl | hs
          · obtain ⟨e, he, hek⟩ := hex; exact ⟨e, he, hek.symm⟩
          · obtain ⟨e, he, hse⟩ := r3 s hs
            refine ⟨e, ?_, hse⟩
            simp only [e1, e2, List.mem_append] at he ⊢
            rcases he with h | h <;> simp [h]
        · intro s hs
          rcases List.mem_cons.1 hs with rfl | hs
          · exact newFn_pl hm1n
          · exact r4 s hs
        · intro n hn
          rcases le_or_gt k n with hkn | hkn
          · rw [r5 n, htot n hkn]
            intro s hs
            rcases List.mem_append.1 hs with h | h
            · exact hn s h
            · simp only [List.mem_singleton] at h; subst h; exact hkn
          · have hafter : ∀ s ∈ (k, newFn m2 c2) :: l', n < s.1 := by
              intro s hs
              have hp := (List.pairwise_append.1 r2).2.1
              rcases List.mem_cons.1 hs with rfl | hs
              · exact hkn
              · exact hkn.trans ((List.pairwise_cons.1 hp).1 s hs)
            rw [tileAt_split hafter hn, ev_coeffs hlp, hco, hbefore n hkn, add_zero]
        · intro k' v hv
          rcases List.mem_cons.1 hv with hv | hv
          · simp only [Prod.mk.injEq] at hv
            obtain ⟨rfl, hv⟩ := hv
            have hm20 : m2 = 0 ∧ v = c2 := by
              have := newFn_coeffs (c := c2) hm1
              rw [← hv] at this
              simp only [coeffs, Prod.mk.injEq] at this
              exact ⟨this.1.symm, this.2⟩
            rw [hbefore _ (by omega), add_zero, hm20.2]
            have hlt : val (k' - 1) < val k' := hval (by omega)
            have hc2' : c2 = m * val k' + c + off := by rw [← hv2, hm20.1]; ring
            rcases hm.lt_or_eq with hmp | hmz
            · rw [hc2']; nlinarith
            · rw [← hmz] at hc2' ⊢
              have : c2 ≠ c := by
                rcases hch.2 with h | h
                · exact absurd (hm20.1.trans hmz) h
                · exact h
              have hoffp : off ≠ 0 := fun h0 => this (by rw [hc2', h0]; ring)
              have := lt_of_le_of_ne hoff0 (Ne.symm hoffp)
              rw [hc2']; linarith
          · have h1 := r6 k' v hv
            have hkk' : k ≤ k' - 1 := by
              have hp := (List.pairwise_append.1 r2).2.1
              have := (List.pairwise_cons.1 hp).1 _ hv
              simp only at this; omega
            rwa [← htot _ hkk'] at h1
        · intro K _ hK hcase hz
          refine ⟨?_, by simp⟩
          by_cases hne2 : lo2 ++ up2 = []
          · obtain ⟨h1, h2⟩ := List.append_eq_nil_iff.1 hne2
            subst h1; subst h2
            have hsw0 : sweep val fuel [] [] m2 c2 (tile ninf (.const 0) (l ++ [(k, newFn m2 c2)]) pinf) =
                .ok (tile ninf (.const 0) (l ++ [(k, newFn m2 c2)]) pinf) := by
              cases fuel <;> simp [sweep]
            rw [hsw0] at r1
            have r1' := congrArg (fun x => match x with | Except.ok p => lastUpper p | _ => .ok pinf) r1
            simp only [lastUpper_tile, Except.ok.injEq] at r1'
            exact r1'.symm
          · obtain ⟨g1, g2⟩ := hKrest K hne2 hK hcase
            exact (r8 K hne2 g1 g2 (by rw [hsum]; exact hz)).1
        · intro n hn
          rcases le_or_gt k n with hkn | hkn
          · rw [r9 n, hactk n hkn]
            intro s hs
            rcases List.mem_append.1 hs with h | h
            · exact hn s h
            · simp only [List.mem_singleton] at h; subst h; exact hkn
          · have hafter : ∀ s ∈ (k, newFn m2 c2) :: l', n < s.1 := by
              intro s hs
              have hp := (List.pairwise_append.1 r2).2.1
              rcases List.mem_cons.1 hs with rfl | hs
              · exact hkn
              · exact hkn.trans ((List.pairwise_cons.1 hp).1 s hs)
            rw [tileAt_split hafter hn, hco, active_before (fun e he => lt_of_lt_of_le hkn (hmin e he)), add_zero]
      · -- the function stays the same
        have hext : extend (tile ninf (.const 0) l u) k m2 c2 = .ok (tile ninf (.const 0) l (fin k)) := by
          simp only [extend, lastFn_tile, bind, Except.bind, hco]
          rw [if_neg hch, setUpper_tile]
        have hsame : m2 = m ∧ c2 = c := by
          by_contra hcon
          have hc : m2 ≠ m ∨ c2 ≠ c := by
            by_contra hh; push Not at hh; exact hcon hh
          have hz : c2 = 0 ∧ m2 = 0 := by
            by_contra hh
            apply hch
            refine ⟨?_, hc⟩
            by_contra h3; push Not at h3; exact hh h3
          rw [hz.1, hz.2] at hv2
          have hy0 : m * val k + c = 0 := by linarith
          have hmz : m = 0 := by
            by_contra hmn
            exact absurd hy0 (hy2 (lt_of_le_of_ne hm (Ne.symm hmn))).ne'
          have hcz : c = 0 := by rw [hmz] at hy0; linarith
          rw [hz.1, hz.2, hmz, hcz] at hc
          simp at hc
        obtain ⟨l', u', r1, r2, r3, r4, r5, r6, r7, r8, r9⟩ := ih lo2 up2 m2 c2 l (fin k) hlen2
          hl2 hu2 hsl2 hsu2 hk (fun s hs e he => (hkk s hs).trans (hrest e he)) hpl
          (by rw [hco, hsame.1, hsame.2]) hlp hm1n hinv2 hact3
        refine ⟨l', u', by rw [hsw, hext]; exact r1, r2, ?_, r4, ?_, ?_, by rw [r7, hsum], ?_, ?_⟩
        · intro s hs
          obtain ⟨e, he, hse⟩ := r3 s hs
          refine ⟨e, ?_, hse⟩
          simp only [e1, e2, List.mem_append] at he ⊢
          rcases he with h | h <;> simp [h]
        · intro n hn
          rw [r5 n hn]
          rcases le_or_gt k n with hkn | hkn
          · rw [htot n hkn]
          · rw [hbefore n hkn, total_before (fun e he => hkn.trans (hrest e he)), hsame.1, hsame.2]
        · intro k' v hv
          have h1 := r6 k' v hv
          obtain ⟨e, he, hse⟩ := r3 _ hv
          have : k < k' := by have := hrest e he; simp only at hse; omega
          rwa [← htot _ (by omega)] at h1
        · intro K _ hK hcase hz
          by_cases hne2 : lo2 ++ up2 = []
          · exfalso
            obtain ⟨h1, h2⟩ := List.append_eq_nil_iff.1 hne2
            subst h1; subst h2
            have hm20 : m2 = 0 := by rw [hz] at hsum; simpa using hsum
            have hmz : m = 0 := by rw [← hsame.1]; exact hm20
            have hoffz : off = 0 := by
              have := hv2; rw [hsame.1, hsame.2] at this; linarith
            have hkK : k ≤ K := by obtain ⟨e, he, hek⟩ := hex; exact hek ▸ hK e he
            rcases hcase with h | ⟨j, hj, hjK, hjp⟩
            · rcases le_or_gt k (K - 1) with h3 | h3
              · rw [hactk _ h3, hm20] at h; simp [active] at h
              · rw [hmz, active_before (fun e he => lt_of_lt_of_le h3 (hmin e he))] at h; simp at h
            · rw [e1, List.append_nil] at hj
              have := map_sum_pos (f := Entry.jump) (fun e he => (hlo e (by simp [e1, he])).jump_nonneg) hj hjp
              rw [← hoff] at this
              exact absurd hoffz this.ne'
          · obtain ⟨g1, g2⟩ := hKrest K hne2 hK hcase
            exact r8 K hne2 g1 g2 (by rw [hsum]; exact hz)
        · intro n hn
          rw [r9 n hn]
          rcases le_or_gt k n with hkn | hkn
          · rw [hactk n hkn]
          · rw [hact2 n hkn.le, active_before (fun e he => lt_of_lt_of_le hkn (hmin e he)), hsame.1]

end Verif.Num
