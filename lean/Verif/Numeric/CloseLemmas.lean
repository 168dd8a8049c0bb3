import Verif.Numeric.FromPdf
import Verif.Numeric.FromPdfSpec
import Verif.Numeric.Props4
import Verif.Numeric.CompareLemmas

/-! # Closing gaps: the density of merged distributions and the cdf of the fragments -/

namespace Verif.Num

open Iv Iv.FP Fun

/-- The floats of a linear piece, the upper bound excluded. -/
def InPiece (n : ℤ) (s : CS × Fn) : Prop :=
  (∃ m c, s.2 = .lin m c) ∧ (∃ a, s.1.lower = fin a ∧ a ≤ n) ∧ ∃ b, s.1.upper = fin b ∧ n < b

theorem map_sum_pos' {α : Type} {f : α → ℚ} {l : List α} (h : ∀ e ∈ l, 0 ≤ f e) : 
    0 < (l.map f).sum ↔ ∃ x ∈ l, 0 < f x := by
  constructor
  · intro hp
    by_contra hc
    push Not at hc
    have : (l.map f).sum ≤ 0 := by
      have := sum_le_sum' (f := f) (g := fun _ => 0) hc
      simpa using this
    linarith
  · rintro ⟨x, hx, h1⟩
    have h2 : f x ≤ (l.map f).sum := List.single_le_sum (by
      intro y hy
      obtain ⟨e, he, rfl⟩ := List.mem_map.1 hy
      exact h e he) _ (List.mem_map_of_mem hx)
    linarith

theorem active_pos {dw : List (PF × ℚ)} (hm : ∀ d ∈ dw, Mergeable d.1)
    (hsl : ∀ d ∈ dw, 0 < d.2 → ∀ s ∈ d.1, ∀ m c, s.2 = .lin m c → tol < d.2 * m) (n : ℤ) :
    0 ≤ active (lowerOf dw) (upperOf dw) n ∧
    (0 < active (lowerOf dw) (upperOf dw) n ↔ ∃ d ∈ dw, 0 < d.2 ∧ ∃ s ∈ d.1, InPiece n s) := by
  have hp := slopes_piece hm hsl
  rw [active_eq]
  have hnn : ∀ s ∈ slopes dw, 0 ≤ (loE s).act n - (upE s).act n := by
    intro s hs
    rw [act_term (hp s hs)]
    split
    · exact (hp s hs).lo.slope_pos.le
    · exact le_rfl
  refine ⟨?_, ?_⟩
  · exact List.sum_nonneg (by
      intro y hy
      obtain ⟨e, he, rfl⟩ := List.mem_map.1 hy
      exact hnn e he)
  · rw [map_sum_pos' hnn]
    constructor
    · rintro ⟨s, hs, h⟩
      obtain ⟨d, hd, hw, h1, h2, h3⟩ := mem_slopes.1 hs
      rw [act_term (hp s hs)] at h
      obtain ⟨m, c, a, b, e1, e2, e3, e4, e5, e6, e7⟩ := hp s hs
      split at h
      · rename_i hb
        simp only [loE, upE, Entry.at', e3, e4] at hb
        exact ⟨d, hd, hw, _, h2, ⟨m, c, e1⟩, ⟨a, e3, hb.1⟩, b, e4, hb.2⟩
      · exact absurd h (lt_irrefl _)
    · rintro ⟨d, hd, hw, ⟨i, f⟩, hs, ⟨m, c, e1⟩, ⟨a, e2, ha⟩, b, e3, hb⟩
      simp only at e1 e2 e3
      have hmem : (i, f, d.2) ∈ slopes dw := mem_slopes.2 ⟨d, hd, hw, rfl, hs, fun v => by
        simp only [e1]; exact fun h => by cases h⟩
      refine ⟨_, hmem, ?_⟩
      rw [act_term (hp _ hmem), if_pos]
      · exact (hp _ hmem).lo.slope_pos
      · simp only [loE, upE, Entry.at', e2, e3]; exact ⟨ha, hb⟩

theorem mass_lt {val : ℤ → ℚ} (hval : StrictMono val) {p : PF} (h : Mergeable p) {n : ℤ} {s : CS × Fn} (hs : s ∈ p)
    (hn : InPiece n s) : mass val p n < mass val p (n + 1) := by
  have hsum : ∀ n, mass val p n = (p.map (climb val n)).sum := by
    intro n
    match p, h, hs with
    | [], _, _ => rfl
    | [_], _, _ => rfl
    | [u, v], h, hs =>
      exfalso
      obtain ⟨-, ⟨x, hx⟩, y, hy⟩ := h.step u v rfl
      obtain ⟨⟨m, c, e⟩, -⟩ := hn
      simp only [List.mem_cons, List.not_mem_nil, or_false] at hs
      rcases hs with rfl | rfl
      · rw [hx] at e; cases e
      · rw [hy] at e; cases e
    | _ :: _ :: _ :: _, _, _ => rfl
  rw [hsum, hsum, ← sub_pos, sum_map_sub, map_sum_pos']
  · refine ⟨s, hs, ?_⟩
    obtain ⟨⟨m, c, e⟩, ⟨a, ea, ha⟩, b, eb, hb⟩ := hn
    rcases h.pieces s hs with ⟨v, hv⟩ | ⟨m', c', a', b', e1, e2, -⟩
    · rw [hv] at e; cases e
    · rw [e] at e1
      cases e1
      simp only [climb, e, ea, eb]
      rw [if_neg (by omega), if_neg (by omega), min_eq_left (by omega), min_eq_left (by omega)]
      have := hval (show n < n + 1 by omega)
      nlinarith
  · intro x hx
    have := climb_mono hval (h.pieces x hx) (show n ≤ n + 1 by omega)
    linarith

theorem mixture_lt {val : ℤ → ℚ} (hval : StrictMono val) {dw : List (PF × ℚ)} (hm : ∀ d ∈ dw, Mergeable d.1 ∧ 0 ≤ d.2)
    {n : ℤ} (h : ∃ d ∈ dw, 0 < d.2 ∧ ∃ s ∈ d.1, InPiece n s) : mixture val dw n < mixture val dw (n + 1) := by
  obtain ⟨d, hd, hw, s, hs, hn⟩ := h
  rw [mixture, mixture, ← sub_pos, sum_map_sub, map_sum_pos']
  · refine ⟨d, hd, ?_⟩
    have := mass_lt hval (hm d hd).1 hs hn
    nlinarith
  · intro x hx
    have := mass_mono hval (hm x hx).1 (show n ≤ n + 1 by omega)
    have := mul_le_mul_of_nonneg_left this (hm x hx).2
    linarith

theorem sl_pl {f : Fn} (h : IsPl f) : sl f = (coeffs f).1 := by
  cases f <;> simp_all [IsPl, sl, coeffs]

theorem climb_nonneg {val : ℤ → ℚ} (hval : StrictMono val) {p : PF} (h : Mergeable p) {n : ℤ} {s : CS × Fn}
    (hs : s ∈ p) : 0 ≤ climb val n s := by
  rcases h.pieces s hs with ⟨v, hv⟩ | ⟨m, c, a, b, e1, e2, e3, e4, e5⟩
  · rw [climb, hv]
  · simp only [climb, e1, e3, e4]
    split
    · exact le_rfl
    · have := hval.monotone (show a ≤ min n b by omega)
      exact mul_nonneg e2.le (by linarith)

theorem mass_nonneg {val : ℤ → ℚ} (hval : StrictMono val) {p : PF} (h : Mergeable p) (n : ℤ) : 0 ≤ mass val p n := by
  have hsum : 0 ≤ (p.map (climb val n)).sum := List.sum_nonneg (by
    intro y hy
    obtain ⟨e, he, rfl⟩ := List.mem_map.1 hy
    exact climb_nonneg hval h he)
  unfold mass
  split
  · split
    · split <;> norm_num
    · exact le_rfl
  · exact hsum

/-- The merged distribution: the mixture until all of it has risen, then 1; its density is positive where the one of
a part is. -/
theorem mergeWeighted_dens {val : ℤ → ℚ} (hval : StrictMono val) (rnd : ℚ → ℤ) {dw : List (PF × ℚ)}
    (hm : ∀ d ∈ dw, Mergeable d.1 ∧ 0 ≤ d.2)
    (hsl : ∀ d ∈ dw, 0 < d.2 → ∀ s ∈ d.1, ∀ m c, s.2 = .lin m c → tol < d.2 * m)
    (hex : ∃ n, ∃ d ∈ dw, 0 < d.2 ∧ ∃ s ∈ d.1, InPiece n s) :
    ∃ (p : PF) (d : Dens) (z : ℤ), mergeWeighted val rnd dw = .ok p ∧ pdf p = .ok d ∧
      (∀ n, ∃ v, densAt d (fin n) = .ok (.fin v) ∧ 0 ≤ v ∧ (0 < v ↔ ∃ d ∈ dw, 0 < d.2 ∧ ∃ s ∈ d.1, InPiece n s)) ∧
      (∀ n, p.eval val n = .ok (some (if n < z then mixture val dw n else 1))) ∧
      (∀ n, n < z → mixture val dw n < mixture val dw z) ∧ ∀ n, z ≤ n → mixture val dw n = mixture val dw z := by
  have hpos : ∃ n, 0 < mixture val dw n := by
    obtain ⟨n, hn⟩ := hex
    refine ⟨n + 1, lt_of_le_of_lt ?_ (mixture_lt hval hm hn)⟩
    exact List.sum_nonneg (by
      intro y hy
      obtain ⟨e, he, rfl⟩ := List.mem_map.1 hy
      exact mul_nonneg (hm e he).2 (mass_nonneg hval (hm e he).1 n))
  obtain ⟨l, z, e, hk, hpl, hlow, hhigh, hslope, -⟩ := mergeWeighted_slope hval (rnd := rnd) hm hsl hpos
  have hz : ∀ n, (∃ d ∈ dw, 0 < d.2 ∧ ∃ s ∈ d.1, InPiece n s) → n < z := by
    intro n hn
    by_contra hc
    have h1 := mixture_lt hval hm hn
    rw [hhigh n (by omega), hhigh (n + 1) (by omega)] at h1
    exact lt_irrefl _ h1
  have hpl' : ∀ s ∈ l ++ [(z, .const 1)], IsPl s.2 := by
    intro s hs
    rcases List.mem_append.1 hs with hs | hs
    · exact hpl s hs
    · simp only [List.mem_singleton] at hs; subst hs; trivial
  have hsim : ∀ f, IsPl f → Simple f := by
    intro f hf
    cases f with
    | const v => exact simple_const v
    | lin m c => exact simple_lin m c
    | _ => exact hf.elim
  have hl : l ≠ [] := by
    rintro rfl
    obtain ⟨n, hn⟩ := hex
    have h1 := (active_pos (fun d hd => (hm d hd).1) hsl n).2.2 hn
    rw [← hslope n (hz n hn)] at h1
    simp [tileAt, coeffs] at h1
  refine ⟨_, _, z, e, pdf_eq ?_ ?_, fun n => ?_, fun n => ?_, fun n hn => (hlow n hn).2, hhigh⟩
  · exact tile_simple (simple_const _) (fun s hs => hsim _ (hpl' s hs))
  · rw [tile_length]
    have := List.length_pos_iff.2 hl
    simp; omega
  · refine ⟨_, densAt_tile n, ?_⟩
    rw [sl_pl (tileAt_pl (f := .const 0) trivial hpl')]
    have hact := active_pos (fun d hd => (hm d hd).1) hsl n
    rcases lt_or_ge n z with hn | hn
    · have : tileAt (.const 0) (l ++ [(z, .const 1)]) n = tileAt (.const 0) l n := by
        rw [tileAt_append hk, if_pos hn]
      rw [this, hslope n hn]
      exact hact
    · have : tileAt (.const 0) (l ++ [(z, .const 1)]) n = .const 1 := by
        rw [tileAt_append hk, if_neg (not_lt.2 hn)]
      rw [this]
      refine ⟨le_rfl, fun h => absurd h (lt_irrefl _), fun h => ?_⟩
      have := hz n h
      omega
  · rw [tile_eval, (tileAt_pl (f := .const 0) trivial hpl').eval]
    rw [tileAt_append hk]
    split
    · rename_i hn; rw [(hlow n hn).1]
    · rfl

/-! ### The fragments -/

/-- The cdf of one fragment. -/
def frag1 (val : ℤ → ℚ) (a b : ℤ) : PF :=
  [(⟨ninf, fin a, .inc, .inc⟩, .const 0),
   (⟨fin a, fin b, .inc, .inc⟩, .lin (1 / (val b - val a)) (-(1 / (val b - val a) * val a))),
   (⟨fin b, pinf, .inc, .inc⟩, .const 1)]

/-- The cdf of two fragments. -/
def frag2 (val : ℤ → ℚ) (a b c d : ℤ) : PF :=
  [(⟨ninf, fin a, .inc, .inc⟩, .const 0),
   (⟨fin a, fin b, .inc, .inc⟩, .lin (1 / 2 / (val b - val a)) (-(1 / 2 / (val b - val a) * val a))),
   (⟨fin b, fin c, .inc, .inc⟩, .const (1 / 2)),
   (⟨fin c, fin d, .inc, .inc⟩, .lin (1 / 2 / (val d - val c)) (1 / 2 - 1 / 2 / (val d - val c) * val c)),
   (⟨fin d, pinf, .inc, .inc⟩, .const 1)]

theorem fragments_left {val : ℤ → ℚ} (hval : StrictMono val) {a b : ℤ} (hab : a < b) :
    fragments val (some ⟨fin a, fin b, .inc, .inc⟩) none = .ok (frag1 val a b) := by
  have h := hval hab
  have h0 : val b - val a ≠ 0 := by linarith
  have h1 : val a ≠ val b := ne_of_lt h
  have n1 : ¬ (b < a) := by omega
  have n4 : ¬ (a = b) := by omega
  simp [frag1, fragments, fragmentPoints, present, CS.isempty, CS.itype, Br.code, CS.mk?, fragmentLoop, CS.eq,
    CS.lowermost, CS.uppermost, FP.lt_def, FP.le_def, leb, bind, Except.bind, pure, Except.pure, Fn.fromPoints, n1, n4,
    h1, Fn.eval, List.mapM_cons]
  field_simp; ring

theorem fragments_right {val : ℤ → ℚ} (hval : StrictMono val) {a b : ℤ} (hab : a < b) :
    fragments val none (some ⟨fin a, fin b, .inc, .inc⟩) = .ok (frag1 val a b) := by
  have h := hval hab
  have h0 : val b - val a ≠ 0 := by linarith
  have h1 : val a ≠ val b := ne_of_lt h
  have n1 : ¬ (b < a) := by omega
  have n4 : ¬ (a = b) := by omega
  simp [frag1, fragments, fragmentPoints, present, CS.isempty, CS.itype, Br.code, CS.mk?, fragmentLoop, CS.eq,
    CS.lowermost, CS.uppermost, FP.lt_def, FP.le_def, leb, bind, Except.bind, pure, Except.pure, Fn.fromPoints, n1, n4,
    h1, Fn.eval, List.mapM_cons]
  field_simp; ring

theorem fragments_both {val : ℤ → ℚ} (hval : StrictMono val) {a b c d : ℤ} (hab : a < b) (hbc : b < c) (hcd : c < d) :
    fragments val (some ⟨fin a, fin b, .inc, .inc⟩) (some ⟨fin c, fin d, .inc, .inc⟩) = .ok (frag2 val a b c d) := by
  have h := hval hab
  have h' := hval hcd
  have h0 : val b - val a ≠ 0 := by linarith
  have h0' : val d - val c ≠ 0 := by linarith
  have h1 : val a ≠ val b := ne_of_lt h
  have h1' : val c ≠ val d := ne_of_lt h'
  have n1 : ¬ (b < a) := by omega
  have n2 : ¬ (c < b) := by omega
  have n3 : ¬ (d < c) := by omega
  have n4 : ¬ (a = b) := by omega
  have n5 : ¬ (a = c) := by omega
  have n6 : ¬ (b = c) := by omega
  have n7 : ¬ (c = d) := by omega
  have n8 : ¬ (c = b) := by omega
  have n9 : ¬ (b = d) := by omega
  have e1 : 2⁻¹ / (val b - val a) * val b + -(2⁻¹ / (val b - val a) * val a) = 2⁻¹ := by field_simp; ring
  have e2 : 2⁻¹ / (val d - val c) * val d + (2⁻¹ - 2⁻¹ / (val d - val c) * val c) = 1 := by field_simp; ring
  simp [frag2, fragments, fragmentPoints, present, CS.isempty, CS.itype, Br.code, CS.mk?, fragmentLoop, CS.eq,
    CS.lowermost, CS.uppermost, FP.lt_def, FP.le_def, leb, bind, Except.bind, pure, Except.pure, Fn.fromPoints, n1, n2,
    n3, n4, n5, n6, n7, n8, n9, h1, h1', Fn.eval, List.mapM_cons, e1, e2]

theorem frag1_mass {val : ℤ → ℚ} {a b : ℤ} (hab : a < b) (hval : StrictMono val) (n : ℤ) :
    mass val (frag1 val a b) n = ramp val a b n := by
  have h0 : val b - val a ≠ 0 := by have := hval hab; linarith
  simp only [frag1, mass, List.map_cons, List.map_nil, climb, List.sum_cons, List.sum_nil, ramp]
  rcases lt_or_ge n a with h1 | h1
  · rw [if_pos h1, if_pos h1.le]; ring
  · rw [if_neg (not_lt.2 h1)]
    rcases lt_or_ge n b with h2 | h2
    · rw [min_eq_left h2.le, if_neg (not_le.2 h2)]
      split
      · rw [show n = a by omega]; ring
      · field_simp; ring
    · rw [min_eq_right h2, if_pos h2, if_neg (by omega)]
      field_simp; ring

theorem frag2_mass {val : ℤ → ℚ} {a b c d : ℤ} (hab : a < b) (hcd : c < d) (hval : StrictMono val) (n : ℤ) :
    mass val (frag2 val a b c d) n = 1 / 2 * ramp val a b n + 1 / 2 * ramp val c d n := by
  have h1 := frag1_mass hab hval n
  have h2 := frag1_mass hcd hval n
  rw [← h1, ← h2]
  simp only [frag1, frag2, mass, List.map_cons, List.map_nil, climb, List.sum_cons, List.sum_nil]
  split_ifs <;> ring

theorem ramp_bounds {val : ℤ → ℚ} (hval : StrictMono val) (a b n : ℤ) :
    0 ≤ ramp val a b n ∧ ramp val a b n ≤ 1 := by
  unfold ramp
  split_ifs with h1 h2
  · norm_num
  · norm_num
  · have h3 := hval (show a < n by omega)
    have h4 := hval (show n < b by omega)
    constructor
    · exact div_nonneg (by linarith) (by linarith)
    · rw [div_le_one (by linarith)]; linarith

theorem frag1_ok {val : ℤ → ℚ} (hval : StrictMono val) {a b : ℤ} (hab : a < b) {w : ℚ}
    (hs : tol < w * (1 / (val b - val a))) : Mergeable (frag1 val a b) ∧
    (∀ s ∈ frag1 val a b, ∀ m c, s.2 = .lin m c → tol < w * m) ∧
    ∀ n, (∃ s ∈ frag1 val a b, InPiece n s) ↔ a ≤ n ∧ n < b := by
  have h0 : 0 < val b - val a := by have := hval hab; linarith
  refine ⟨⟨?_, ?_⟩, ?_, fun n => ?_⟩
  · intro s hs
    simp only [frag1, List.mem_cons, List.not_mem_nil, or_false] at hs
    rcases hs with rfl | rfl | rfl
    · exact .inl ⟨_, rfl⟩
    · exact .inr ⟨_, _, a, b, rfl, by positivity, rfl, rfl, hab⟩
    · exact .inl ⟨_, rfl⟩
  · intro s t h; simp [frag1] at h
  · intro s hs' m c hm
    simp only [frag1, List.mem_cons, List.not_mem_nil, or_false] at hs'
    rcases hs' with rfl | rfl | rfl
    · cases hm
    · cases hm; exact hs
    · cases hm
  · simp [frag1, InPiece]

theorem frag2_ok {val : ℤ → ℚ} (hval : StrictMono val) {a b c d : ℤ} (hab : a < b) (hcd : c < d)
    {w : ℚ} (hs : tol < w * (1 / 2 / (val b - val a))) (hs' : tol < w * (1 / 2 / (val d - val c))) :
    Mergeable (frag2 val a b c d) ∧ (∀ s ∈ frag2 val a b c d, ∀ m c, s.2 = .lin m c → tol < w * m) ∧
    ∀ n, (∃ s ∈ frag2 val a b c d, InPiece n s) ↔ (a ≤ n ∧ n < b) ∨ (c ≤ n ∧ n < d) := by
  have h0 : 0 < val b - val a := by have := hval hab; linarith
  have h0' : 0 < val d - val c := by have := hval hcd; linarith
  refine ⟨⟨?_, ?_⟩, ?_, fun n => ?_⟩
  · intro s hs
    simp only [frag2, List.mem_cons, List.not_mem_nil, or_false] at hs
    rcases hs with rfl | rfl | rfl | rfl | rfl
    · exact .inl ⟨_, rfl⟩
    · exact .inr ⟨_, _, a, b, rfl, by positivity, rfl, rfl, hab⟩
    · exact .inl ⟨_, rfl⟩
    · exact .inr ⟨_, _, c, d, rfl, by positivity, rfl, rfl, hcd⟩
    · exact .inl ⟨_, rfl⟩
  · intro s t h; simp [frag2] at h
  · intro s hs1 m c hm
    simp only [frag2, List.mem_cons, List.not_mem_nil, or_false] at hs1
    rcases hs1 with rfl | rfl | rfl | rfl | rfl
    · cases hm
    · cases hm; exact hs
    · cases hm
    · cases hm; exact hs'
    · cases hm
  · simp [frag2, InPiece]

/-! ### The fitted cdf -/

theorem seg_pieces {val : ℤ → ℚ} {n hi : ℤ} {g : Fn} (hg : ∃ v, g = .const v) : ∀ {r : List (ℤ × ℚ)} {p a : ℤ × ℚ},
    Rising (p :: a :: r) → (p :: a :: r).getLast? = some (hi, 1) →
    ((∃ s ∈ tile (fin p.1) (lineOf val p a) (segs val (a :: r) ++ [(hi + 1, g)]) pinf, InPiece n s) ↔
      p.1 ≤ n ∧ n < hi + 1)
  | [], p, a, hr, hl => by
    obtain ⟨v, rfl⟩ := hg
    simp [segs, tile, InPiece, lineOf]
  | b :: r, p, a, hr, hl => by
    have hr' := List.pairwise_cons.1 hr
    have h1 := hr'.1 a (by simp)
    have ih := seg_pieces (val := val) (n := n) hg hr'.2 (by simpa using hl)
    have h2 : a.1 ≤ hi := by
      have : (hi, (1 : ℚ)) ∈ a :: b :: r := List.mem_of_getLast? (by simpa using hl)
      rcases List.mem_cons.1 this with h | h
      · rw [← h]
      · exact ((List.pairwise_cons.1 hr'.2).1 _ h).1.le
    simp only [segs, List.cons_append, tile, List.mem_cons, exists_eq_or_imp] at ih ⊢
    rw [ih]
    simp only [InPiece, lineOf]
    constructor
    · rintro (⟨-, ⟨x, h3, h4⟩, y, h5, h6⟩ | h)
      · cases h3; cases h5; omega
      · omega
    · rintro ⟨h3, h4⟩
      rcases lt_or_ge n a.1 with h5 | h5
      · exact .inl ⟨⟨_, _, rfl⟩, ⟨_, rfl, h3⟩, _, rfl, h5⟩
      · exact .inr ⟨h5, h4⟩

theorem fit_pieces {val : ℤ → ℚ} {n lo hi : ℤ} {y : ℚ} {pts : List (ℤ × ℚ)} (hr : Rising pts)
    (hlen : 2 ≤ pts.length) (hhead : pts.head? = some (lo, y)) (hl : pts.getLast? = some (hi, 1)) :
    (∃ s ∈ tile ninf (.const 0) (segs val pts ++ [(hi + 1, .const 1)]) pinf, InPiece n s) ↔ lo ≤ n ∧ n < hi + 1 := by
  obtain ⟨p, a, r, rfl⟩ : ∃ p a r, pts = p :: a :: r := by
    match pts, hlen with
    | p :: a :: r, _ => exact ⟨p, a, r, rfl⟩
  simp only [List.head?_cons, Option.some.injEq] at hhead
  have := seg_pieces (val := val) (n := n) (g := .const 1) ⟨_, rfl⟩ hr hl
  simp only [segs, List.cons_append, tile, List.mem_cons, exists_eq_or_imp] at this ⊢
  rw [this, hhead]
  simp [InPiece]

theorem mass_fit_head {val : ℤ → ℚ} (hval : StrictMono val) {pts : List (ℤ × ℚ)} {lo hi : ℤ} {y : ℚ}
    (hr : Rising pts) (hlen : 2 ≤ pts.length) (hhead : pts.head? = some (lo, y))
    (hlast : pts.getLast? = some (hi, 1)) :
    Mergeable (tile ninf (.const 0) (segs val pts ++ [(hi + 1, .const 1)]) pinf) ∧ ∀ n,
    mass val (tile ninf (.const 0) (segs val pts ++ [(hi + 1, .const 1)]) pinf) n =
      ev (tileAt (.const 0) (segs val pts ++ [(hi + 1, .const 1)]) n) (val n) -
        (if lo ≤ n then y else 0) + if hi + 1 ≤ n then overshoot val pts else 0 := by
  have hk : Knots (segs val pts ++ [(hi + 1, .const 1)]) := full_knots hr hlast
  have hL : ∀ s ∈ segs val pts ++ [(hi + 1, .const 1)], IsPl s.2 := by
    intro s hs
    rcases List.mem_append.1 hs with hs | hs
    · obtain ⟨i, a, b, h1, h2, rfl⟩ := segs_get hs
      have := rising_get hr h1 h2
      exact lineOf_pl hval this.1 this.2
    · simp only [List.mem_singleton] at hs; subst hs; trivial
  have hl : ∃ v, lastOf (.const 0) (segs val pts ++ [(hi + 1, .const 1)]) = .const v := ⟨1, lastOf_append _ _ _ _⟩
  refine ⟨mergeable_tile hk hL hl, fun n => ?_⟩
  obtain ⟨p, a, r, rfl⟩ : ∃ p a r, pts = p :: a :: r := by
    match pts, hlen with
    | p :: a :: r, _ => exact ⟨p, a, r, rfl⟩
  have h2 : (segs val (p :: a :: r) ++ [((hi + 1, .const 1) : ℤ × Fn)]).length ≠ 1 := by simp [segs]
  have h3 := mass_tile (val := val) hk hL hl h2 n
  simp only [List.head?_cons, Option.some.injEq] at hhead
  have h4 := jumpSum_segs hval (n := n) r p a hr hlast
  have h5 : jumpSum val n (.const 0) (segs val (p :: a :: r) ++ [(hi + 1, .const 1)]) =
      (if lo ≤ n then y else 0) + if hi + 1 ≤ n then -overshoot val (p :: a :: r) else 0 := by
    rw [segs, List.cons_append, jumpSum, h4, ev_lineOf, sub_self, mul_zero, add_zero]
    subst hhead
    have : ev (.const 0) (val lo) = 0 := rfl
    simp only [this, sub_zero]
  rw [h5] at h3
  split_ifs at h3 ⊢ <;> linarith

/-! ### The density of a leaf with one value -/

theorem left_all {a b : ℤ} (h : a < b) : PF.leftover CS.allnumbers ⟨fin a, fin b, .inc, .exc⟩ =
    .ok (.rs [⟨ninf, fin a, .exc, .exc⟩, ⟨fin b, pinf, .inc, .exc⟩]) := by
  have n1 : ¬ b < a := by omega
  have n2 : ¬ b = a := by omega
  have n3 : ¬ a = b := by omega
  have n4 : ¬ b ≤ a := by omega
  have m1 : max ninf (fin a) = fin a := max_eq_right (by simp [FP.le_def, leb])
  have m2 : min pinf (fin b) = fin b := min_eq_right (by simp [FP.le_def, leb])
  have hx : CS.intersectionEnds CS.allnumbers ⟨fin a, fin b, .inc, .exc⟩ (some .inc) (some .exc) =
      .ok ⟨fin a, fin b, .inc, .exc⟩ := by
    simp [CS.allnumbers, CS.intersectionEnds, CS.intersects, CS.isempty, CS.itype, Br.code, FP.lt_def,
    FP.le_def, leb, CS.intersection, CS.mk?, CS.convertEnds, n1, n3, bind, Except.bind, m1, m2]
  have hd : CS.difference CS.allnumbers ⟨fin a, fin b, .inc, .exc⟩ =
      .ok (.rs [⟨ninf, fin a, .exc, .exc⟩, ⟨fin b, pinf, .inc, .exc⟩]) := by
    simp [CS.difference, CS.allnumbers, CS.containsInterval, CS.isempty, CS.itype, Br.code, CS.mk?, n1, n3, CS.lowermost, CS.uppermost, FP.lt_def, FP.le_def, leb, bind, Except.bind, FP.up, FP.dn, Br.flip]
  have ha : CS.HalfOpen ⟨ninf, fin a, .exc, .exc⟩ := ⟨by simp [FP.lt_def, leb], rfl, .inl ⟨rfl, rfl⟩⟩
  have hb : CS.HalfOpen ⟨fin b, pinf, .inc, .exc⟩ := ⟨by simp [FP.lt_def, leb], rfl, .inr ⟨by simp, rfl⟩⟩
  obtain ⟨D, hD, -, hD'⟩ := RS.simplify_two ha.wf hb.wf ha.reg hb.reg ha.nonempty (by
    rintro x ⟨h1, h2⟩
    cases x <;> simp [CS.Mem, FP.lt_def, leb] at h1 h2
    omega) (by simp [CS.contiguous, n3])
  have hD' := hD' hb.nonempty
  rw [if_pos (by simp [FP.le_def, leb])] at hD'
  subst hD'
  simp only [PF.leftover, hx, bind, Except.bind, hd, hD]

theorem left_pos {a b : ℤ} (h : a < b) : PF.leftover ⟨fin b, pinf, .inc, .exc⟩ ⟨fin a, fin b, .inc, .exc⟩ =
    .ok (.cs ⟨fin b, pinf, .inc, .exc⟩) := by
  have n1 : ¬ b < a := by omega
  have n3 : ¬ a = b := by omega
  simp [PF.leftover, CS.intersectionEnds, CS.intersects, CS.isempty, CS.itype, Br.code, FP.lt_def, FP.le_def, leb,
    CS.difference, CS.mk?, CS.emptyset, n1, n3, bind, Except.bind, CS.isclosed]

theorem overwrite_zero {a b : ℤ} (h : a < b) (f : Fn) :
    PF.overwriteAt [(CS.allnumbers, .const 0)] ⟨fin a, fin b, .inc, .exc⟩ f =
    .ok [(⟨ninf, fin a, .exc, .exc⟩, .const 0), (⟨fin a, fin b, .inc, .exc⟩, f), (⟨fin b, pinf, .inc, .exc⟩, .const 0)] := by
  have n1 : ¬ b < a := by omega
  have n3 : ¬ a = b := by omega
  have n4 : ¬ b - 1 > b := by omega
  simp [PF.overwriteAt, PF.overwriteLoop, left_all h, left_pos h, bind, Except.bind, RS.isempty, CS.isempty, CS.itype, Br.code, FP.lt_def, FP.le_def, leb, CS.uppermost, CS.lowermost, FP.dn, FP.up, CS.boundaries, CS.mk?, n1, CS.convertEnds]
theorem overwrite_empty {x : ℤ} (f : Fn) :
    PF.overwriteAt [(CS.allnumbers, .const 0)] ⟨fin x, fin x, .inc, .exc⟩ f =
    .ok [(CS.allnumbers, .const 0), (⟨fin x, fin x, .inc, .exc⟩, f)] := by
  simp [PF.overwriteAt, PF.overwriteLoop, PF.leftover, CS.intersectionEnds, CS.intersects, CS.allnumbers, CS.difference,
    CS.emptyset, bind, Except.bind, CS.isempty, CS.itype, Br.code, FP.lt_def, FP.le_def, leb,
    CS.uppermost, CS.lowermost, FP.dn, FP.up, CS.boundaries, CS.mk?, CS.convertEnds, CS.isclosed]

end Verif.Num
