import Verif.Numeric.CloseLemmas
import Verif.Numeric.Props13

/-! # Closing the gaps between the leaves: C83 -/

namespace Verif.Num

open Iv Iv.FP Fun

theorem tileAt_top {val : ℤ → ℚ} {hi : ℤ} {g : Fn} : ∀ {r : List (ℤ × ℚ)} {p a : ℤ × ℚ},
    Rising (p :: a :: r) → (p :: a :: r).getLast? = some (hi, 1) →
    sl (tileAt (lineOf val p a) (segs val (a :: r) ++ [(hi + 1, g)]) hi) * (val (hi + 1) - val hi) =
      overshoot val (p :: a :: r)
  | [], p, a, _, hl => by
    have : a = (hi, 1) := by simpa using hl
    subst this
    simp [segs, tileAt, overshoot, lineOf, sl]
  | b :: r, p, a, hr, hl => by
    have hr' := List.pairwise_cons.1 hr
    have ih := tileAt_top (val := val) (g := g) hr'.2 (by simpa using hl)
    have h2 : a.1 ≤ hi := by
      have : (hi, (1 : ℚ)) ∈ a :: b :: r := List.mem_of_getLast? (by simpa using hl)
      rcases List.mem_cons.1 this with h | h
      · rw [← h]
      · exact ((List.pairwise_cons.1 hr'.2).1 _ h).1.le
    simp only [segs, List.cons_append, tileAt, if_neg (not_lt.2 h2)]
    rw [overshoot]
    · exact ih
    · simp

theorem tile_last_upper : ∀ {l : List (ℤ × Fn)} {lo u : FP} {f : Fn},
    ∃ i t, tile lo f l u = i ++ [t] ∧ t.1.upper = u
  | [], lo, u, f => ⟨[], _, rfl, rfl⟩
  | (k, g) :: r, lo, u, f => by
    obtain ⟨i, t, h1, h2⟩ := tile_last_upper (l := r) (lo := fin k) (u := u) (f := g)
    exact ⟨_ :: i, t, by rw [tile, h1]; rfl, h2⟩

theorem tile_lastKnot {l : List (ℤ × Fn)} {lo : FP} {f g : Fn} {k : ℤ} {u : FP} :
    lastKnot (tile lo f (l ++ [(k, g)]) u) = .ok (fin k) := by
  obtain ⟨i, t, h1, h2⟩ := tile_last_upper (l := l) (lo := lo) (u := fin k) (f := f)
  rw [← tile_append, h1]
  simp [lastKnot, h2]

theorem insert_eq {val : ℤ → ℚ} {rnd : ℚ → ℤ} {cdf g : PF} {left right : Option CS} {N : ℕ} (hN : 0 < N)
    (hg : fragments val left right = .ok g) : insertFragments val rnd cdf left right N =
    mergeWeighted val rnd [(cdf, 1 - 1 / (2 * N)), (g, 1 / (2 * N))] := by
  rw [insertFragments, hg]
  simp only [bind, Except.bind]
  rw [if_neg (by omega), merge]
  have h1 : ([some (1 - 1 / (2 * (N : ℚ))), some (1 / (2 * (N : ℚ)))]).mapM id =
      some [1 - 1 / (2 * (N : ℚ)), 1 / (2 * (N : ℚ))] := rfl
  simp only [weightsOf, bind, Except.bind, h1]
  rw [if_neg]
  · rfl
  · have : ([1 - 1 / (2 * (N : ℚ)), 1 / (2 * (N : ℚ))] : List ℚ).sum - 1 = 0 := by simp
    rw [this]; norm_num [tol]

theorem leftGap_eq {path : CS} {lo : ℤ} : leftGap path (fin lo) =
    if gapFrom path lo < lo then some ⟨fin (gapFrom path lo), fin lo, .inc, .inc⟩ else none := by
  obtain ⟨a, b, l, r⟩ := path
  cases a <;> simp [leftGap, gapFrom, FP.lt_def, leb]
  split_ifs with h
  · rw [min_eq_left h.le]
  · rfl

theorem rightGap_eq {path : CS} {hi : ℤ} : rightGap path (fin hi) =
    if hi < gapTo path hi then some ⟨fin hi, fin (gapTo path hi), .inc, .inc⟩ else none := by
  obtain ⟨a, b, l, r⟩ := path
  cases b <;> simp [rightGap, gapTo, FP.lt_def, leb]
  split_ifs with h
  · rw [max_eq_left h.le]
  · rfl

theorem fragments_spec {val : ℤ → ℚ} (hval : StrictMono val) {path : CS} {lo hi : ℤ} (hlt : lo < hi) {w : ℚ}
    (hgap : gapFrom path lo < lo ∨ hi < gapTo path hi)
    (hleft : gapFrom path lo < lo → tol < w * (share (gapFrom path lo) lo hi (gapTo path hi) /
      (val lo - val (gapFrom path lo))))
    (hright : hi < gapTo path hi → tol < w * (share (gapFrom path lo) lo hi (gapTo path hi) /
      (val (gapTo path hi) - val hi))) :
    ∃ g, fragments val (leftGap path (fin lo)) (rightGap path (fin hi)) = .ok g ∧ Mergeable g ∧
      (∀ s ∈ g, ∀ m c, s.2 = .lin m c → tol < w * m) ∧
      (∀ n, mass val g n = gapCdf val (gapFrom path lo) lo hi (gapTo path hi) n) ∧
      ∀ n, (∃ s ∈ g, InPiece n s) ↔ (gapFrom path lo ≤ n ∧ n < lo) ∨ (hi ≤ n ∧ n < gapTo path hi) := by
  rw [leftGap_eq, rightGap_eq]
  generalize gapFrom path lo = a at *
  generalize gapTo path hi = b at *
  by_cases h1 : a < lo <;> by_cases h2 : hi < b
  · rw [if_pos h1, if_pos h2]
    have hs : share a lo hi b = 1 / 2 := if_pos ⟨h1, h2⟩
    rw [hs] at hleft hright
    obtain ⟨e1, e2, e3⟩ := frag2_ok hval h1 h2 (hleft h1) (hright h2)
    refine ⟨_, fragments_both hval h1 hlt h2, e1, e2, fun n => ?_, e3⟩
    rw [frag2_mass h1 h2 hval, gapCdf, if_pos h1, if_pos h2, hs]
  · rw [if_pos h1, if_neg h2]
    have hs : share a lo hi b = 1 := if_neg (fun h => h2 h.2)
    rw [hs] at hleft
    obtain ⟨e1, e2, e3⟩ := frag1_ok hval h1 (hleft h1)
    refine ⟨_, fragments_left hval h1, e1, e2, fun n => ?_, fun n => ?_⟩
    · rw [frag1_mass h1 hval, gapCdf, if_pos h1, if_neg h2, hs]; ring
    · rw [e3]; omega
  · rw [if_neg h1, if_pos h2]
    have hs : share a lo hi b = 1 := if_neg (fun h => h1 h.1)
    rw [hs] at hright
    obtain ⟨e1, e2, e3⟩ := frag1_ok hval h2 (hright h2)
    refine ⟨_, fragments_right hval h2, e1, e2, fun n => ?_, fun n => ?_⟩
    · rw [frag1_mass h2 hval, gapCdf, if_neg h1, if_pos h2, hs]; ring
    · rw [e3]; omega
  · exact absurd hgap (by omega)

/-- Closing the gaps of a leaf whose values are not all the same.  `[lo, hi]` is the range of the values, `N` the number
of samples of the tree.  The new cdf is the mixture of the fitted one, with the weight `1 - 1 / (2 N)`, and the uniform
distribution on the gaps, except that the mass of the least value is lost until the end and that the last line of the
fitted cdf is continued by one float; from the end of the path on it is 1.  The density is positive exactly from the
beginning of the lower to the end of the upper gap.

Partial: the full claim is the mixture itself, see `C83_violated_mass`, and is made for all leaves, see
`C83_violated_tight` and `C83_violated_dirac`, and without the hypotheses on the slopes, see `C83_violated_wide`. -/
theorem C83_closed_partial {val : ℤ → ℚ} (hval : StrictMono val) (rnd : ℚ → ℤ) (pick : CS → ℤ) {eps : ℚ}
    {data s : List ℤ} {l r : Option ℤ} (hs : loadBuffer data l r = .ok s) {lo hi : ℤ} (hlo : lo ∈ s) (hhi : hi ∈ s)
    (hlt : lo < hi) (hmin : ∀ x ∈ s, lo ≤ x) (hmax : ∀ x ∈ s, x ≤ hi) (path : CS) (N : ℕ) (hN : 0 < N)
    (a b : ℤ) (ha : a = gapFrom path lo) (hb : b = gapTo path (hi + 1)) (hgap : a < lo ∨ hi + 1 < b)
    (hsteep : ∀ p, fit val eps data l r = .ok p → ∀ t ∈ p, ∀ m c, t.2 = .lin m c → tol < (1 - 1 / (2 * N)) * m)
    (hleft : a < lo → tol < 1 / (2 * N) * (share a lo (hi + 1) b / (val lo - val a)))
    (hright : hi + 1 < b → tol < 1 / (2 * N) * (share a lo (hi + 1) b / (val b - val (hi + 1)))) :
    ∃ (p c : PF) (d e : Dens) (F : ℤ → ℚ) (m : ℚ), fit val eps data l r = .ok p ∧
      (∀ n, p.eval val n = .ok (some (F n))) ∧ F lo = rank s lo ∧
      pdf p = .ok d ∧ densAt d (fin hi) = .ok (.fin m) ∧
      closeGaps val rnd pick path N p = .ok c ∧ pdf c = .ok e ∧
      (∀ n, c.eval val n = .ok (some (if n < b then
        (1 - 1 / (2 * N)) * (F n - (if lo ≤ n then F lo else 0) +
          (if hi + 1 ≤ n then m * (val (hi + 1) - val hi) else 0)) +
        1 / (2 * N) * gapCdf val a lo (hi + 1) b n else 1))) ∧
      ∀ n, ∃ v, densAt e (fin n) = .ok (.fin v) ∧ 0 ≤ v ∧ (0 < v ↔ a ≤ n ∧ n < b) := by
  subst ha hb
  obtain ⟨pts, p, F, hp, hshape, heval, hthr, hrise, hlen, hhead, hlast, hpts⟩ :=
    fit_spec hval (eps := eps) hs hlo hhi hlt hmin hmax
  obtain ⟨g, hg, gm, gs, gmass, gp⟩ := fragments_spec hval (path := path) (show lo < hi + 1 by omega) hgap hleft hright
  obtain ⟨fm, fmass⟩ := mass_fit_head hval hrise hlen hhead hlast
  have fp := fun n => fit_pieces (val := val) (n := n) hrise hlen hhead hlast
  have hslope := hsteep p hp
  have hFlo : F lo = rank s lo := by
    obtain ⟨x, y, r, rfl⟩ : ∃ x y r, pts = x :: y :: r := by
      match pts, hlen with
      | x :: y :: r, _ => exact ⟨x, y, r, rfl⟩
    simp only [List.head?_cons, Option.some.injEq] at hhead
    have hab := (List.pairwise_cons.1 hrise).1 y (by simp)
    have := hthr.on 0 x y rfl rfl x.1 le_rfl hab.1.le
    rw [hhead] at this; simpa using this
  have hL : ∀ s ∈ segs val pts ++ [(hi + 1, .const 1)], IsPl s.2 := by
    intro s hs
    rcases List.mem_append.1 hs with hs | hs
    · obtain ⟨i, a, b, h1, h2, rfl⟩ := segs_get hs
      have := rising_get hrise h1 h2
      exact lineOf_pl hval this.1 this.2
    · simp only [List.mem_singleton] at hs; subst hs; trivial
  have hFm : ∀ n, ev (tileAt (.const 0) (segs val pts ++ [(hi + 1, .const 1)]) n) (val n) = F n := by
    intro n
    have h1 := heval n
    rw [hshape, tile_eval, (tileAt_pl (f := .const 0) trivial hL).eval] at h1
    simpa using h1
  rw [← hshape] at fm fmass fp
  have hN' : (1 : ℚ) ≤ N := by exact_mod_cast hN
  have hw2 : (0 : ℚ) < 1 / (2 * N) := by positivity
  have hw1 : (0 : ℚ) < 1 - 1 / (2 * N) := by
    have : 1 / (2 * (N : ℚ)) ≤ 1 / 2 := by
      apply one_div_le_one_div_of_le <;> linarith
    linarith
  have hmm : ∀ d ∈ [(p, 1 - 1 / (2 * (N : ℚ))), (g, 1 / (2 * (N : ℚ)))], Mergeable d.1 ∧ 0 ≤ d.2 := by
    intro d hd
    simp only [List.mem_cons, List.not_mem_nil, or_false] at hd
    rcases hd with rfl | rfl
    · exact ⟨fm, hw1.le⟩
    · exact ⟨gm, hw2.le⟩
  have hst : ∀ d ∈ [(p, 1 - 1 / (2 * (N : ℚ))), (g, 1 / (2 * (N : ℚ)))], 0 < d.2 → ∀ s ∈ d.1, ∀ m c,
      s.2 = .lin m c → tol < d.2 * m := by
    intro d hd
    simp only [List.mem_cons, List.not_mem_nil, or_false] at hd
    rcases hd with rfl | rfl
    · exact fun _ => hslope
    · exact fun _ => gs
  have hin : ∀ n, (∃ d ∈ [(p, 1 - 1 / (2 * (N : ℚ))), (g, 1 / (2 * (N : ℚ)))], 0 < d.2 ∧ ∃ s ∈ d.1, InPiece n s) ↔
      gapFrom path lo ≤ n ∧ n < gapTo path (hi + 1) := by
    intro n
    have e1 : gapFrom path lo ≤ lo := by
      unfold gapFrom; split
      · exact min_le_right _ _
      · exact le_rfl
    have e2 : hi + 1 ≤ gapTo path (hi + 1) := by
      unfold gapTo; split
      · exact le_max_right _ _
      · exact le_rfl
    simp only [List.mem_cons, List.not_mem_nil, or_false, exists_eq_or_imp, exists_eq_left, hw1, hw2, true_and, fp, gp]
    omega
  obtain ⟨c, e, z, h1, h2, h3, h4, h5, h6⟩ := mergeWeighted_dens hval rnd hmm hst
    ⟨lo, (hin lo).2 (by
      constructor
      · unfold gapFrom; split
        · exact min_le_right _ _
        · exact le_rfl
      · unfold gapTo; split
        · exact lt_of_lt_of_le (show lo < hi + 1 by omega) (le_max_right _ _)
        · omega)⟩
  have hmix : ∀ n, mixture val [(p, 1 - 1 / (2 * (N : ℚ))), (g, 1 / (2 * (N : ℚ)))] n =
      (1 - 1 / (2 * N)) * (F n - (if lo ≤ n then F lo else 0) +
          (if hi + 1 ≤ n then overshoot val pts else 0)) +
        1 / (2 * N) * gapCdf val (gapFrom path lo) lo (hi + 1) (gapTo path (hi + 1)) n := by
    intro n
    simp only [mixture, List.map_cons, List.map_nil, List.sum_cons, List.sum_nil, fmass, gmass, hFm, hFlo]
    ring
  have hF1 : ∀ n, hi ≤ n → F n = 1 := fun n hn => hthr.after n fun t ht => by
    have := hmax _ (hpts t ht).1; omega
  have e1 : gapFrom path lo ≤ lo := by
    unfold gapFrom; split
    · exact min_le_right _ _
    · exact le_rfl
  have e2 : hi + 1 ≤ gapTo path (hi + 1) := by
    unfold gapTo; split
    · exact le_max_right _ _
    · exact le_rfl
  have hz : z = gapTo path (hi + 1) := by
    apply le_antisymm
    · by_contra hc
      push Not at hc
      have h7 := h5 _ hc
      have hend : ∀ n, gapTo path (hi + 1) ≤ n →
          gapCdf val (gapFrom path lo) lo (hi + 1) (gapTo path (hi + 1)) n =
          gapCdf val (gapFrom path lo) lo (hi + 1) (gapTo path (hi + 1)) (gapTo path (hi + 1)) := by
        intro n hn
        unfold gapCdf ramp
        split_ifs <;> first | rfl | omega
      rw [hmix, hmix, hend z hc.le, hF1 _ (by omega), hF1 z (by omega), if_pos (by omega), if_pos (by omega),
        if_pos (by omega), if_pos (by omega)] at h7
      exact lt_irrefl _ h7
    · by_contra hc
      push Not at hc
      have h7 := mixture_lt hval hmm ((hin (gapTo path (hi + 1) - 1)).2 (by omega))
      rw [h6 _ (by omega), h6 (gapTo path (hi + 1) - 1 + 1) (by omega)] at h7
      exact lt_irrefl _ h7
  have hp2 : p.length ≠ 2 := by
    rw [hshape, tile_length]
    match pts, hlen with
    | x :: y :: r, _ => simp [segs]
  have hclose : closeGaps val rnd pick path N p = .ok c := by
    rw [← h1, ← insert_eq hN hg]
    obtain ⟨x, y, r, rfl⟩ : ∃ x y r, pts = x :: y :: r := by
      match pts, hlen with
      | x :: y :: r, _ => exact ⟨x, y, r, rfl⟩
    simp only [List.head?_cons, Option.some.injEq] at hhead
    have hk : lastKnot p = .ok (fin (hi + 1)) := by rw [hshape]; exact tile_lastKnot
    have hhd : ∃ (i : CS) (f : Fn) (t u : CS × Fn) (v : PF), p = (i, f) :: t :: u :: v ∧ i.upper = fin lo := by
      obtain ⟨t, u, v, ht⟩ : ∃ t u v, tile (fin x.1) (lineOf val x y) (segs val (y :: r) ++ [(hi + 1, .const 1)]) pinf =
          t :: u :: v := by
        have : 2 ≤ (tile (fin x.1) (lineOf val x y) (segs val (y :: r) ++ [(hi + 1, .const 1)]) pinf).length := by
          rw [tile_length]; simp
        have two : ∀ w : PF, 2 ≤ w.length → ∃ t u v, w = t :: u :: v
          | t :: u :: v, _ => ⟨t, u, v, rfl⟩
        exact two _ this
      refine ⟨_, _, t, u, v, by rw [hshape, segs, List.cons_append, tile, ht], ?_⟩
      rw [hhead]
    obtain ⟨i, f, t, u, v, hu, hi'⟩ := hhd
    rw [hu] at hk ⊢
    unfold closeGaps
    simp only [hk, bind, Except.bind, hi']
  refine ⟨p, c, densOf p, e, F, sl (tileAt (.const 0) (segs val pts ++ [(hi + 1, .const 1)]) hi), hp, heval, hFlo,
    ?_, ?_, hclose, h2, fun n => ?_, fun n => ?_⟩
  · refine pdf_eq ?_ hp2
    rw [hshape]
    refine tile_simple (simple_const _) (fun s hs => ?_)
    have := hL s hs
    generalize s.2 = f at this
    cases f with
    | const v => exact simple_const v
    | lin m c => exact simple_lin m c
    | _ => exact this.elim
  · rw [hshape, densAt_tile]
  · rw [h4, hmix, hz]
    have : sl (tileAt (.const 0) (segs val pts ++ [(hi + 1, .const 1)]) hi) * (val (hi + 1) - val hi) =
        overshoot val pts := by
      obtain ⟨x, y, r, rfl⟩ : ∃ x y r, pts = x :: y :: r := by
        match pts, hlen with
        | x :: y :: r, _ => exact ⟨x, y, r, rfl⟩
      simp only [List.head?_cons, Option.some.injEq] at hhead
      have h7 := tileAt_top (val := val) (g := .const 1) hrise hlast
      rw [← h7, segs, List.cons_append, tileAt, hhead, if_neg (by omega)]
    rw [this]
  · obtain ⟨v, h7, h8, h9⟩ := h3 n
    exact ⟨v, h7, h8, h9.trans (hin n)⟩

theorem jump_close {val : ℤ → ℚ} {rnd : ℚ → ℤ} {pick : CS → ℤ} {path : CS} {N : ℕ} {x : ℤ} :
    closeGaps val rnd pick path N (jumpCdf x) = spread val pick (fin (gapFrom path x)) (fin (gapTo path x)) := by
  have h1 : lastKnot (jumpCdf x) = .ok (fin x) := rfl
  have h2 : jumpCdf x = [(⟨ninf, fin x, .exc, .exc⟩, .const 0), (⟨fin x, pinf, .inc, .exc⟩, .const 1)] := rfl
  rw [h2] at h1 ⊢
  unfold closeGaps
  simp only [h1, bind, Except.bind, leftGap_eq, rightGap_eq]
  have e1 : gapFrom path x < x ∨ gapFrom path x = x := by
    have : gapFrom path x ≤ x := by
      unfold gapFrom; split
      · exact min_le_right _ _
      · exact le_rfl
    omega
  have e2 : x < gapTo path x ∨ gapTo path x = x := by
    have : x ≤ gapTo path x := by
      unfold gapTo; split
      · exact le_max_right _ _
      · exact le_rfl
    omega
  rcases e1 with e1 | e1 <;> rcases e2 with e2 | e2 <;> simp [e1, e2]

/-- Closing the gaps of a leaf all of whose values are `x`.  Let the gap reach from `a` to `b`, which are both `x` if
there is none.  The new distribution is uniform between `a` and `b`, the float `b` excluded; but if there is no float or
just one in between, it fails, and if the width of the gap is not within `1e-8` of the one without its last float, it is
refused. -/
theorem C83_single_value {val : ℤ → ℚ} (hval : StrictMono val) (rnd : ℚ → ℤ) (pick : CS → ℤ)
    (hpick : ∀ z, z ≤ pick ⟨fin z, pinf, .inc, .exc⟩) {eps : ℚ} {data s : List ℤ} {l r : Option ℤ}
    (hs : loadBuffer data l r = .ok s) {x : ℤ} (hx : x ∈ s) (hall : ∀ y ∈ s, y = x) (path : CS) (N : ℕ)
    (a b : ℤ) (ha : a = gapFrom path x) (hb : b = gapTo path x) :
    ∃ p, fit val eps data l r = .ok p ∧
      (a = b ∨ a + 1 = b → closeGaps val rnd pick path N p = .error .zeroDivision) ∧
      (a + 1 < b → 1 + tol < (val b - val a) / (val (b - 1) - val a) →
        closeGaps val rnd pick path N p = .error .valueError) ∧
      (a + 1 < b → (val b - val a) / (val (b - 1) - val a) ≤ 1 + tol →
        ∃ c d, closeGaps val rnd pick path N p = .ok c ∧ pdf c = .ok d ∧
          (∀ n, c.eval val n = .ok (some (ramp val a b n))) ∧
          ∀ n, densAt d (fin n) = .ok (.fin (if a ≤ n ∧ n < b then 1 / (val b - val a) else 0))) := by
  refine ⟨_, fit_single hs hx hall, ?_, ?_⟩
  · rw [jump_close, ← ha, ← hb]
    rintro (rfl | rfl)
    · have h1 := hval (show a - 1 < a by omega)
      have h0 : ¬ val (a - 1) - val a = 0 := by intro h; linarith
      have hv : ¬ 1 / (val (a - 1) - val a) = 0 := by
        intro h; rw [one_div, inv_eq_zero] at h; exact h0 h
      have e1 : CS.mk? (fin a) (fin a) .inc .exc = .ok ⟨fin a, fin a, .inc, .exc⟩ := by
        simp [CS.mk?]
      have e2 := overwrite_empty (x := a) (.const (1 / (val (a - 1) - val a)))
      have e3 : (⟨fin a, fin a, .inc, .exc⟩ : CS).lowermost = fin a := rfl
      have e4 : (⟨fin a, fin a, .inc, .exc⟩ : CS).uppermost = fin (a - 1) := rfl
      simp only [spread, e1, e3, e4, bind, Except.bind, if_neg h0, e2, List.map_cons, List.map_nil]
      have e5 : ∀ (f : Fn) (m : ℤ), PF.eval val [(CS.allnumbers, .const 0), (⟨fin a, fin a, .inc, .exc⟩, f)] m =
          .ok (some 0) := by
        intro f m
        have hh : PF.hit (fin m) CS.allnumbers = true := by
          have : CS.containsValue CS.allnumbers (fin m) = true := by
            rw [CS.containsValue_iff]; simp [CS.Mem, CS.allnumbers, FP.lt_def, leb]
          rw [PF.hit, this]; rfl
        simp only [PF.eval, PF.atPos, List.find?, hh]; rfl
      simp only [pdfToCdf, List.foldlM, integrate, Integral.push, bind, Except.bind, pure, Except.pure, if_true,
        if_neg hv, List.nil_append, List.singleton_append, lastValue, List.getLast?_cons_cons, List.getLast?_singleton,
        e5, sub_zero, offsets]
      rw [if_neg (by norm_num [tol])]
    · simp [spread, CS.mk?, FP.lt_def, leb, CS.lowermost, CS.uppermost, FP.dn, bind, Except.bind]
  · rw [jump_close, ← ha, ← hb, ← forall_and]
    intro hab
    have h1 := hval (show a < b - 1 by omega)
    have h2 := hval (show b - 1 < b by omega)
    have h0 : val (b - 1) - val a ≠ 0 := by linarith
    have n1 : ¬ b < a := by omega
    have e : spread val pick (fin a) (fin b) = pdfToCdf val pick (stepDens ninf 0
        [(a, 1 / (val (b - 1) - val a)), (b, 0)]) := by
      have := overwrite_zero (show a < b by omega) (.const (1 / (val (b - 1) - val a)))
      have e1 : CS.mk? (fin a) (fin b) .inc .exc = .ok ⟨fin a, fin b, .inc, .exc⟩ := by
        simp [CS.mk?, FP.lt_def, leb, n1]
      have e3 : (⟨fin a, fin b, .inc, .exc⟩ : CS).lowermost = fin a := rfl
      have e4 : (⟨fin a, fin b, .inc, .exc⟩ : CS).uppermost = fin (b - 1) := rfl
      simp only [spread, e1, e3, e4, bind, Except.bind, if_neg h0, this, List.map_cons, List.map_nil]
      rfl
    have hT : areaAll val [(a, 1 / (val (b - 1) - val a)), (b, 0)] = (val b - val a) / (val (b - 1) - val a) := by
      simp [areaAll]; ring
    have hT0 : (val b - val a) / (val (b - 1) - val a) ≠ 0 := by
      refine div_ne_zero (by linarith) h0
    obtain ⟨d1, -, d2⟩ := C82_density (val := val) pick hpick [(a, 1 / (val (b - 1) - val a)), (b, 0)]
      (by simp; omega) b rfl
    rw [hT] at d1 d2
    rw [e]
    refine ⟨d1, fun h => ?_⟩
    obtain ⟨c, h3, h4, h5⟩ := d2 h hT0
    refine ⟨c, _, h3, h5, fun n => ?_, fun n => ?_⟩
    · rw [h4]
      simp only [area, ramp, add_zero]
      have h6 : val b - val a ≠ 0 := by linarith
      rcases le_or_gt n a with h7 | h7
      · rw [if_pos h7, max_eq_left (by omega), sub_self, mul_zero, zero_div]
      · rw [if_neg (by omega), max_eq_right (by omega)]
        rcases le_or_gt b n with h8 | h8
        · rw [if_pos h8, min_eq_right h8]; field_simp
        · rw [if_neg (by omega), min_eq_left h8.le]; field_simp
    · have h6 : val b - val a ≠ 0 := by linarith
      have h7 : stepDens ninf 0 (List.map (fun s => (s.1, s.2 / ((val b - val a) / (val (b - 1) - val a))))
          [(a, 1 / (val (b - 1) - val a)), (b, 0)]) = densOf (tile ninf (.const 0)
            [(a, .lin (1 / (val b - val a)) 0), (b, .const 0)] pinf) := by
        rw [densOf_tile]
        have h8 : 1 / (val (b - 1) - val a) / ((val b - val a) / (val (b - 1) - val a)) = 1 / (val b - val a) := by
          field_simp
        simp only [List.map_cons, List.map_nil, h8, zero_div, sl]
      rw [h7, densAt_tile]
      simp only [tileAt]
      split_ifs <;> first | rfl | omega

/-! ### Cases that meet the hypotheses -/

theorem fit_0_4 : fit ival 0 [0, 4] = .ok [(⟨ninf, fin 0, .exc, .exc⟩, .const 0),
    (⟨fin 0, fin 5, .inc, .exc⟩, .lin (1 / 4) 0), (⟨fin 5, pinf, .inc, .exc⟩, .const 1)] := by decide +kernel

/-- Samples 0 and 4 in a leaf with the path `[-2, 9)`. -/
example (rnd : ℚ → ℤ) (pick : CS → ℤ) : ∃ (p c : PF) (e : Dens), fit ival 0 [0, 4] = .ok p ∧
    closeGaps ival rnd pick ⟨fin (-2), fin 9, .inc, .exc⟩ 10 p = .ok c ∧ pdf c = .ok e ∧
    c.eval ival (-1) = .ok (some (1 / 80)) ∧ ∃ v, densAt e (fin (-1)) = .ok (.fin v) ∧ 0 < v := by
  obtain ⟨p, c, d, e, F, m, h1, h2, h3, -, -, h4, h5, h6, h7⟩ := C83_closed_partial (val := ival) ival_strictMono rnd pick
    (eps := 0) (data := [0, 4]) (l := none) (r := none) (s := [0, 4]) rfl (lo := 0) (hi := 4) (by simp) (by simp)
    (by omega) (by simp) (by simp) ⟨fin (-2), fin 9, .inc, .exc⟩ 10 (by omega) (-2) 9 rfl rfl (.inl (by omega))
    (by
      intro p hp t ht m c hm
      rw [fit_0_4] at hp
      cases hp
      simp only [List.mem_cons, List.not_mem_nil, or_false] at ht
      rcases ht with rfl | rfl | rfl
      · cases hm
      · cases hm; norm_num [tol]
      · cases hm)
    (fun _ => by norm_num [share, ival, tol]) (fun _ => by norm_num [share, ival, tol])
  refine ⟨p, c, e, h1, h4, h5, ?_, ?_⟩
  · have e0 : F (-1) = 0 := by
      have := h2 (-1)
      rw [fit_0_4] at h1
      cases h1
      have h8 : PF.eval ival [(⟨ninf, fin 0, .exc, .exc⟩, .const 0),
        (⟨fin 0, fin 5, .inc, .exc⟩, .lin (1 / 4) 0), (⟨fin 5, pinf, .inc, .exc⟩, .const 1)] (-1) = .ok (some 0) := by
        decide +kernel
      rw [h8] at this
      simpa using this.symm
    rw [h6, e0]
    norm_num [gapCdf, share, ramp, ival]
  · obtain ⟨v, h8, -, h9⟩ := h7 (-1)
    exact ⟨v, h8, h9.2 (by omega)⟩

/-! ### Where closing the gaps does something else -/

/-- A leaf with the only value `x = 10^9` and the path `[0, ∞)`, as the right one of two leaves: after closing the gap
the density of `x` is 0, and nothing is left from `x` on. -/
theorem C83_violated_dirac (rnd : ℚ → ℤ) (N : ℕ) : ∃ (p c : PF) (d : Dens),
    fit ival 0 [10 ^ 9, 10 ^ 9] = .ok p ∧
    closeGaps ival rnd pickLower ⟨fin 0, pinf, .inc, .exc⟩ N p = .ok c ∧ pdf c = .ok d ∧
    densAt d (fin (10 ^ 9)) = .ok (.fin 0) ∧ c.eval ival (10 ^ 9) = .ok (some 1) := by
  obtain ⟨p, h1, -, -, h2⟩ := C83_single_value (val := ival) ival_strictMono rnd pickLower (fun z => le_rfl) (eps := 0)
    (data := [10 ^ 9, 10 ^ 9]) (l := none) (r := none) (s := [10 ^ 9, 10 ^ 9]) rfl (x := 10 ^ 9) (by simp) (by simp)
    ⟨fin 0, pinf, .inc, .exc⟩ N 0 (10 ^ 9) rfl rfl
  obtain ⟨c, d, h3, h4, h5, h6⟩ := h2 (by omega) (by norm_num [ival, tol])
  refine ⟨p, c, d, h1, h3, h4, ?_, ?_⟩
  · rw [h6, if_neg (by omega)]
  · rw [h5, ramp, if_neg (by omega), if_pos le_rfl]

/-- The gaps of a leaf, for the counterexamples. -/
def closed (path : CS) (N : ℕ) (data : List ℤ) : Except Err PF :=
  (fit ival (1 / 100) data).bind (closeGaps ival Rat.floor pickLower path N)

/-- A repeated least value loses its mass: the mixture of 9/10 of the fitted distribution and 1/10 of the gap is 11/20
at 4.  And the cdf may exceed 1. -/
theorem C83_violated_mass :
    ((fit ival (1 / 100) [1, 1, 4, 9, 20]).bind (fun p => p.eval ival 4)).toOption = some (some (1 / 2)) ∧
    ((closed ⟨fin (-3), pinf, .inc, .exc⟩ 5 [1, 1, 4, 9, 20]).bind (fun c => c.eval ival 4)).toOption =
      some (some (13 / 40)) ∧
    ((closed ⟨ninf, fin 40, .exc, .exc⟩ 5 [0, 1, 4, 9, 20]).bind (fun c => c.eval ival 39)).toOption =
      some (some (8487 / 8360)) := by
  refine ⟨?_, ?_, ?_⟩ <;> decide +kernel

/-- A leaf that has no gap is changed: the cdf is scaled and jumps at its end. -/
theorem C83_violated_tight :
    ((fit ival (1 / 100) [0, 1, 4, 9, 20]).bind (fun p => p.eval ival 20)).toOption = some (some 1) ∧
    ((closed ⟨fin 0, pinf, .inc, .exc⟩ 4 [0, 1, 4, 9, 20]).bind (fun c => c.eval ival 20)).toOption =
      some (some (7 / 8)) := by
  refine ⟨?_, ?_⟩ <;> decide +kernel

/-- A wide gap is not closed: the density at `-5` is 0. -/
theorem C83_violated_wide :
    (((closed ⟨fin (-10 ^ 9), pinf, .inc, .exc⟩ 4 [0, 1, 4, 9, 20]).bind pdf).bind
      (fun d => densAt d (fin (-5)))).toOption = some (.fin 0) := by
  decide +kernel

end Verif.Num
