import Verif.Numeric.CloseLemmas

/-!
# The density of a fitted distribution
-/

namespace Verif.Num

open Iv Iv.FP Fun

theorem exists_seg {n : ℤ} : ∀ {pts : List (ℤ × ℚ)} {a z : ℤ × ℚ}, pts.head? = some a → pts.getLast? = some z →
    2 ≤ pts.length → a.1 ≤ n → n < z.1 →
    ∃ (i : ℕ) (p q : ℤ × ℚ), pts[i]? = some p ∧ pts[i + 1]? = some q ∧ p.1 ≤ n ∧ n < q.1
  | [], _, _, _, _, h, _, _ => by simp at h
  | [_], _, _, _, _, h, _, _ => by simp at h
  | x :: y :: r, a, z, ha, hz, _, h1, h2 => by
    simp only [List.head?_cons, Option.some.injEq] at ha
    subst ha
    by_cases hy : n < y.1
    · exact ⟨0, x, y, rfl, rfl, h1, hy⟩
    · cases r with
      | nil =>
        simp only [List.getLast?_cons_cons, List.getLast?_singleton, Option.some.injEq] at hz
        subst hz; exact absurd h2 hy
      | cons w r =>
        obtain ⟨i, p, q, h3, h4, h5, h6⟩ := exists_seg (n := n) (pts := y :: w :: r) (a := y) (z := z) rfl
          (by simpa using hz) (by simp) (by omega) h2
        exact ⟨i + 1, p, q, h3, h4, h5, h6⟩

/-- The density of a fitted distribution is the slope of its cdf. -/
theorem fit_dens {val : ℤ → ℚ} (hval : StrictMono val) {eps : ℚ} {data s : List ℤ}
    {l r : Option ℤ} (hs : loadBuffer data l r = .ok s) {lo hi : ℤ} (hlo : lo ∈ s) (hhi : hi ∈ s)
    (hlt : lo < hi) (hmin : ∀ x ∈ s, lo ≤ x) (hmax : ∀ x ∈ s, x ≤ hi) :
    ∃ (p : PF) (F g : ℤ → ℚ), fit val eps data l r = .ok p ∧ (∀ n, p.eval val n = .ok (some (F n))) ∧
      pdf p = .ok (densOf p) ∧ (∀ n, densAt (densOf p) (fin n) = .ok (.fin (g n))) ∧
      (∀ n, lo ≤ n → n < hi → 0 < g n ∧ g n = (F (n + 1) - F n) / (val (n + 1) - val n)) ∧
      g hi = g (hi - 1) ∧ ∀ n, n < lo ∨ hi < n → g n = 0 := by
  obtain ⟨pts, p, F, hp, hshape, heval, hthr, hrise, hlen, hhead, hlast, hpts⟩ :=
    fit_spec hval (eps := eps) hs hlo hhi hlt hmin hmax
  obtain ⟨p', F', hp'', -, -, hF⟩ := fitCdf_of hval (eps := eps) hs hlo hhi hlt hmin hmax
  have e : p' = p := by rw [hp] at hp''; exact (Except.ok.inj hp'').symm
  subst e
  have hrest : ∀ t ∈ [((hi + 1 : ℤ), Fn.const 1)], ∀ q ∈ pts, q.1 < t.1 := by
    intro t ht q hq
    simp only [List.mem_singleton] at ht
    subst ht
    have := hmax _ (hpts q hq).1
    show q.1 < hi + 1
    omega
  set g : ℤ → ℚ := fun n => sl (tileAt (.const 0) (segs val pts ++ [(hi + 1, .const 1)]) n) with hg
  have hseg : ∀ n, lo ≤ n → n < hi → ∃ (i : ℕ) (a b : ℤ × ℚ), pts[i]? = some a ∧ pts[i + 1]? = some b ∧
      a.1 ≤ n ∧ n < b.1 ∧ g n = (b.2 - a.2) / (val b.1 - val a.1) := by
    intro n h1 h2
    obtain ⟨i, a, b, h3, h4, h5, h6⟩ := exists_seg (n := n) hhead hlast hlen h1 h2
    refine ⟨i, a, b, h3, h4, h5, h6, ?_⟩
    rw [hg]
    simp only
    rw [tileAt_segs_on i a b hrise hrest h3 h4 h5 h6.le (.inl h6)]
    rfl
  refine ⟨p', F, g, hp, heval, hF.dens, fun n => ?_, fun n h1 h2 => ?_, ?_, fun n hn => ?_⟩
  · rw [hshape, densAt_tile]
  · obtain ⟨i, a, b, h3, h4, h5, h6, h7⟩ := hseg n h1 h2
    have hab := rising_get hrise h3 h4
    have hv1 := hval hab.1
    have hv2 := hval (show n < n + 1 by omega)
    constructor
    · rw [h7]
      exact div_pos (by linarith [hab.2]) (by linarith)
    · rw [h7, hthr.on i a b h3 h4 n h5 h6.le, hthr.on i a b h3 h4 (n + 1) (by omega) (by omega)]
      field_simp [show val (n + 1) - val n ≠ 0 by linarith, show val b.1 - val a.1 ≠ 0 by linarith]
      ring
  · obtain ⟨i, a, b, h3, h4, h5, h6, h7⟩ := hseg (hi - 1) (by omega) (by omega)
    rw [h7, hg]
    simp only
    have hb : b.1 = hi := by
      have := hmax _ (hpts b (List.mem_of_getElem? h4)).1
      omega
    have hend : pts[i + 2]? = none := by
      cases h8 : pts[i + 2]? with
      | none => rfl
      | some q =>
        have := rising_get hrise h4 h8
        have := hmax _ (hpts q (List.mem_of_getElem? h8)).1
        omega
    rw [tileAt_segs_on i a b hrise hrest h3 h4 (by omega) (by omega) (.inr hend)]
    rfl
  · rw [hg]
    simp only
    rcases hn with hn | hn
    · rw [tileAt_segs_before (fun q hq => ?_) hlen]
      · rfl
      · have := hmin _ (hpts q hq).1
        omega
    · rw [tileAt_high (z := (hi + 1, .const 1)) (by simp)]
      · rfl
      · intro t ht
        rcases List.mem_append.1 ht with ht | ht
        · obtain ⟨i, a, b, h1, h2, rfl⟩ := segs_get ht
          have := hmax _ (hpts a (List.mem_of_getElem? h1)).1
          show a.1 ≤ n
          omega
        · simp only [List.mem_singleton] at ht
          subst ht
          show hi + 1 ≤ n
          omega

end Verif.Num
