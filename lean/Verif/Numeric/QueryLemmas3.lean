import Verif.Numeric.QueryLemmas2
import Verif.Numeric.FitLemmas3

/-! # Probabilities from fitted cdfs and Dirac impulses -/

namespace Verif.Num

open Iv Iv.FP Fun

theorem gtZero_tail {l : FP} {z : ℤ} {v : ℚ} : ∀ {S : List (ℤ × Fn)} {lo : FP} {f : Fn}, 0 < sl f → (∀ s ∈ S, 0 < sl s.2) →
    gtZero (some l) (densOf (tile lo f (S ++ [(z, .const v)]) pinf)) = [⟨l, fin z, .inc, .exc⟩]
  | [], lo, f, hf, _ => by
    have hp := (pos_iff _).2 hf
    have h0 : (XQ.fin (sl (.const v))).le (.fin 0) = true := by simp [sl, XQ.le]
    simp [tile, densOf, gtZero, hp, h0]
  | (k, g) :: r, lo, f, hf, hS => by
    have hp := (pos_iff _).2 hf
    have := gtZero_tail (l := l) (z := z) (v := v) (S := r) (lo := fin k) (f := g) (hS (k, g) (by simp))
      (fun s hs => hS s (by simp [hs]))
    simp only [List.cons_append, tile, densOf, List.map, gtZero, hp, Bool.false_eq_true, if_false]
    exact this

theorem segs_slope {val : ℤ → ℚ} (hval : StrictMono val) : ∀ {pts : List (ℤ × ℚ)}, Rising pts →
    ∀ s ∈ segs val pts, 0 < sl s.2 ∧ Simple s.2
  | [], _, s, hs => by simp [segs] at hs
  | [_], _, s, hs => by simp [segs] at hs
  | a :: b :: r, h, s, hs => by
    have h' := List.pairwise_cons.1 h
    simp only [segs, List.mem_cons] at hs
    rcases hs with rfl | hs
    · have h1 := h'.1 b (by simp)
      have h2 := hval h1.1
      exact ⟨by simp only [lineOf, sl]; exact div_pos (by linarith) (by linarith), simple_lin _ _⟩
    · exact segs_slope hval h'.2 s hs

/-- A fitted cdf with its knots. -/
structure FitCdf (val : ℤ → ℚ) (p : PF) (lo hi : ℤ) (F : ℤ → ℚ) : Prop where
  lt : lo < hi
  dens : pdf p = .ok (densOf p)
  space : gtZero none (densOf p) = [⟨fin lo, fin (hi + 1), .inc, .exc⟩]
  tiled : ∃ L, p = tile ninf (.const 0) L pinf
  at' : ∀ n, cdfAt val p (fin n) = .ok (F n)
  mono : Monotone F
  zero : ∀ n, n < lo → F n = 0
  one : ∀ n, hi ≤ n → F n = 1
  low : F lo < 1

theorem fitCdf_of {val : ℤ → ℚ} (hval : StrictMono val) {eps : ℚ} {data s : List ℤ}
    {l r : Option ℤ} (hs : loadBuffer data l r = .ok s) {lo hi : ℤ} (hlo : lo ∈ s) (hhi : hi ∈ s)
    (hlt : lo < hi) (hmin : ∀ x ∈ s, lo ≤ x) (hmax : ∀ x ∈ s, x ≤ hi) :
    ∃ (p : PF) (F : ℤ → ℚ), fit val eps data l r = .ok p ∧ (∀ n, p.eval val n = .ok (some (F n))) ∧
      F lo = rank s lo ∧ FitCdf val p lo hi F := by
  obtain ⟨pts, p, F, hp, hp', heval, hthr, hrise, hlen, hhead, hlast, hpts⟩ :=
    fit_spec hval (eps := eps) hs hlo hhi hlt hmin hmax
  have h2 := length_two hlo hhi (by omega)
  have hslope := segs_slope hval hrise
  obtain ⟨a, b, r, rfl⟩ : ∃ a b r, pts = a :: b :: r := by
    match pts, hlen with
    | a :: b :: r, _ => exact ⟨a, b, r, rfl⟩
  simp only [List.head?_cons, Option.some.injEq] at hhead
  have hFlo : F lo = rank s lo := by
    have hab := (List.pairwise_cons.1 hrise).1 b (by simp)
    have := hthr.on 0 a b rfl rfl a.1 le_rfl hab.1.le
    rw [hhead] at this; simpa using this
  refine ⟨p, F, hp, heval, hFlo, hlt, ?_, ?_, ⟨_, hp'⟩, ?_, ?_, ?_, ?_, ?_⟩
  · rw [hp']
    refine pdf_eq (tile_simple (simple_const _) ?_) ?_
    · intro s hs
      rcases List.mem_append.1 hs with hs | hs
      · exact (hslope s hs).2
      · simp only [List.mem_singleton] at hs; rw [hs]; exact simple_const _
    · rw [tile_length]; simp [segs]
  · rw [hp']
    have := gtZero_tail (l := fin a.1) (z := hi + 1) (v := 1) (S := segs val (b :: r)) (lo := fin a.1) (f := lineOf val a b)
      (hslope (a.1, lineOf val a b) (by simp [segs])).1 (fun s hs => (hslope s (by simp [segs, hs])).1)
    rw [hhead] at this
    simp only [segs, List.cons_append, tile, densOf, List.map, gtZero]
    have h0 : (XQ.fin (sl (.const 0))).le (.fin 0) = true := by simp [sl, XQ.le]
    rw [if_pos h0, hhead]
    cases hL : segs val (b :: r) ++ [(hi + 1, Fn.const 1)] with
    | nil => simp at hL
    | cons t L =>
      have hpos := (pos_iff _).2 (hslope (a.1, lineOf val a b) (by simp [segs])).1
      rw [hL] at this
      rw [hhead] at hpos
      simp only [tile, List.map, gtZero, densOf, hpos, Bool.false_eq_true, if_false] at this ⊢
      exact this
  · intro n
    have h1 := heval n
    rw [hp', tile_eval] at h1
    rw [hp', cdfAt, tile_at (by simp [FP.le_def, leb]) (by simp [FP.lt_def, leb])]
    simp only [Except.ok.injEq] at h1
    simp only [evalFP, h1]
  · exact hthr.monotone hval hrise (by rw [hhead]; rfl) hlast (rank_nonneg hlo h2) hlen
  · intro n hn
    exact hthr.before n (fun q hq => by have := hmin _ (hpts q hq).1; omega)
  · intro n hn
    exact hthr.after n (fun q hq => by have := hmax _ (hpts q hq).1; omega)
  · rw [hFlo]
    have := dropLast_lt hrise (p := a) (z := (hi, 1)) (by simp [List.dropLast]) hlast
    rw [hhead] at this; exact this.2

/-- A cdf that increases over the floats from `lo` to `hi`, and nowhere else but at `hi + 1`. -/
structure SpanCdf (val : ℤ → ℚ) (p : PF) (lo hi : ℤ) (F : ℤ → ℚ) : Prop where
  lt : lo < hi
  dens : pdf p = .ok (densOf p)
  space : gtZero none (densOf p) = [⟨fin lo, fin (hi + 1), .inc, .exc⟩]
  tiled : ∃ L, p = tile ninf (.const 0) L pinf
  at' : ∀ n, cdfAt val p (fin n) = .ok (F n)
  mono : Monotone F
  zero : ∀ n, n < lo → F n = 0
  one : ∀ n, hi < n → F n = 1
  low : F lo < F hi

theorem FitCdf.span {val : ℤ → ℚ} {p : PF} {lo hi : ℤ} {F : ℤ → ℚ} (h : FitCdf val p lo hi F) : SpanCdf val p lo hi F where
  lt := h.lt
  dens := h.dens
  space := h.space
  tiled := h.tiled
  at' := h.at'
  mono := h.mono
  zero := h.zero
  one := fun n hn => h.one n hn.le
  low := by rw [h.one hi le_rfl]; exact h.low

/-- What `pInterval` returns for such a cdf. -/
theorem SpanCdf.p {val : ℤ → ℚ} {p : PF} {lo hi : ℤ} {F : ℤ → ℚ} (h : SpanCdf val p lo hi F) {I : CS} {m : ℤ}
    (hm : I.Mem (fin m)) :
    pInterval val p I = .ok (if (⟨fin lo, fin (hi + 1), .inc, .exc⟩ : CS).intersects I
      then below F I.upper - below F I.lower else 0) := by
  obtain ⟨hb1, hb2⟩ := mem_bounds hm
  obtain ⟨L, e⟩ := h.tiled
  rw [pInterval, h.dens]
  simp only [bind, Except.bind, h.space]
  have h1 : massTo val p I.upper = .ok (below F I.upper) := by
    rw [e]; exact massTo_eq (fun n => e ▸ h.at' n) hb2
  have h2 : massFrom val p I.lower = .ok (below F I.lower) := by
    rw [e]; exact massFrom_eq (fun n => e ▸ h.at' n) hb1
  rw [h1, h2]
  simp only [RS.intersects, List.any_cons, List.any_nil, Bool.or_false, List.all_cons, List.all_nil, Bool.and_true]
  by_cases hi' : (⟨fin lo, fin (hi + 1), .inc, .exc⟩ : CS).intersects I = true
  · simp only [hi', Bool.not_true, Bool.false_eq_true, if_false, if_true]
    by_cases h0 : below F I.upper - below F I.lower = 0
    · rw [if_pos h0, h0, if_neg]
      intro hc
      have hs := fun n (hn : (⟨fin lo, fin (hi + 1), .inc, .exc⟩ : CS).Mem (fin n)) => CS.containsInterval_sound hc hn
      have m1 : I.Mem (fin lo) := hs lo ⟨.inr ⟨rfl, rfl⟩, .inl (by simp [FP.lt_def, leb]; have := h.lt; omega)⟩
      have m2 : I.Mem (fin hi) := hs hi ⟨.inl (by simpa [FP.lt_def, leb] using h.lt), .inl (by simp [FP.lt_def, leb])⟩
      have hu : F hi ≤ below F I.upper := by
        have := (mem_bounds m2).2
        cases hx : I.upper with
        | ninf => rw [hx] at this; simp [FP.le_def, leb] at this
        | pinf => simp only [below]; rw [← h.one (hi + 1) (by omega)]; exact h.mono (by omega)
        | fin b => rw [hx] at this; exact h.mono (by simpa [FP.le_def, leb] using this)
      have hl : below F I.lower ≤ F lo := by
        have := (mem_bounds m1).1
        cases hx : I.lower with
        | pinf => rw [hx] at this; simp [FP.le_def, leb] at this
        | ninf => simp only [below]; rw [← h.zero (lo - 1) (by omega)]; exact h.mono (by omega)
        | fin b => rw [hx] at this; exact h.mono (by simpa [FP.le_def, leb] using this)
      have := h.low
      linarith
    · rw [if_neg h0]
  · have : (⟨fin lo, fin (hi + 1), .inc, .exc⟩ : CS).intersects I = false := by simpa using hi'
    simp [this]

/-- What `pInterval` returns for a fitted cdf. -/
theorem FitCdf.p {val : ℤ → ℚ} {p : PF} {lo hi : ℤ} {F : ℤ → ℚ} (h : FitCdf val p lo hi F) {I : CS} {m : ℤ}
    (hm : I.Mem (fin m)) :
    pInterval val p I = .ok (if (⟨fin lo, fin (hi + 1), .inc, .exc⟩ : CS).intersects I
      then below F I.upper - below F I.lower else 0) := h.span.p hm

end Verif.Num
