import Verif.Numeric.ConvolutionLemmas4

/-!
# The convolution of two step functions
-/

namespace Verif.Fun.PF

open Iv Iv.FP Iv.CS

variable {val : ℤ → ℚ} {u : ℚ}

theorem bump_range {L : List (ℤ × ℚ)} (h : IsBump L) : ∃ lo hi : ℤ, lo ∈ L.map Prod.fst ∧ hi ∈ L.map Prod.fst ∧
    (∀ k ∈ L.map Prod.fst, lo ≤ k ∧ k ≤ hi) ∧ ∀ k, ¬ (lo ≤ k ∧ k < hi) → stepAt 0 L k = 0 := by
  obtain ⟨h1, h2⟩ := h
  cases L with
  | nil => simp at h2
  | cons a r =>
    cases hl : (a :: r).getLast? with
    | none => simp at hl
    | some b =>
      have hb : b ∈ a :: r := List.mem_of_getLast? hl
      have hlo : ∀ s ∈ a :: r, a.1 ≤ s.1 := by
        intro s hs
        rcases List.mem_cons.1 hs with rfl | hs
        · exact le_rfl
        · exact le_of_lt ((List.pairwise_cons.1 h1).1 s hs)
      have hhi : ∀ s ∈ a :: r, s.1 ≤ b.1 := by
        intro s hs
        obtain ⟨l, e⟩ := List.getLast?_eq_some_iff.1 hl
        rw [e] at hs h1
        rcases List.mem_append.1 hs with hs | hs
        · exact le_of_lt ((List.pairwise_append.1 h1).2.2 s hs b (by simp))
        · rw [List.mem_singleton.1 hs]
      refine ⟨a.1, b.1, List.mem_map_of_mem (by simp), List.mem_map_of_mem hb, ?_, fun k hk => ?_⟩
      · intro k hk
        obtain ⟨s, hs, rfl⟩ := List.mem_map.1 hk
        exact ⟨hlo s hs, hhi s hs⟩
      · by_cases e : a.1 ≤ k
        · rw [stepAt_after (fun s hs => le_trans (hhi s hs) (by omega)), h2]; rfl
        · exact stepAt_before (fun s hs => lt_of_lt_of_le (not_le.1 e) (hlo s hs))

theorem step_flat {L : List (ℤ × ℚ)} {p : ℚ} (h : L.Pairwise (fun s t => s.1 < t.1)) {n : ℤ} (hn : n ∉ L.map Prod.fst) :
    stepAt p L n = stepAt p L (n - 1) := by
  have := jump_sum (n := n) (p := p) h
  rw [List.sum_eq_zero] at this
  · linarith
  · intro x hx
    obtain ⟨s, hs, rfl⟩ := List.mem_map.1 hx
    rw [if_neg]
    rintro rfl
    apply hn
    rw [← jumps_fst p]
    exact List.mem_map_of_mem hs

theorem jumps_variation : ∀ (p : ℚ) (L : List (ℤ × ℚ)), ((jumps p L).map (fun s => |s.2|)).sum = variation p L
  | _, [] => rfl
  | p, (k, v) :: r => by simp [jumps, variation, jumps_variation v r]

theorem not_impulse {L : List (ℤ × ℚ)} (h : ¬ Narrow L) : isImpulse val (stepFn L) = .ok false := by
  match L, h with
  | [], _ => rfl
  | [a], _ => rfl
  | [(a, v), (b, w)], h =>
    have hab : ¬ b ≤ a + 2 := fun hab => h ⟨a, b, v, w, rfl, hab⟩
    have hle : ¬ (fin b).dn ≤ (fin a).up := by simp [FP.dn, FP.up, FP.le_def, leb]; omega
    simp only [stepFn, List.map_cons, List.map_nil, Num.tile, isImpulse, bind, Except.bind, Fn.eq, CS.lowermost,
      Num.brOf, CS.isninf, CS.ispinf, FP.isInf, if_true]
    rw [if_neg hle]
    by_cases hw : w = 0 <;> simp [hw]
  | a :: b :: c :: r, _ =>
    simp only [stepFn, List.map_cons, Num.tile]
    cases r <;> rfl

theorem onLine_exists (hval : StrictMono val) {n : ℤ} : ∀ {p q : ℤ × ℚ} {pts : List (ℤ × ℚ)},
    (p :: q :: pts).Pairwise (fun a b => a.1 < b.1) → p.1 ≤ n → (∃ t ∈ p :: q :: pts, n ≤ t.1) →
    ∃ w, OnLine val (p :: q :: pts) n w
  | p, q, pts, h, h1, h2 => by
    obtain ⟨g1, g2⟩ := List.pairwise_cons.1 h
    have hpq := g1 q (by simp)
    by_cases hq : n ≤ q.1
    · have hd : val q.1 - val p.1 ≠ 0 := sub_ne_zero.2 (ne_of_gt (hval hpq))
      exact ⟨p.2 + (q.2 - p.2) / (val q.1 - val p.1) * (val n - val p.1), [], p, q, pts, rfl, h1, hq, by
        field_simp; ring⟩
    · obtain ⟨t, ht, hn⟩ := h2
      have ht' : t ∈ pts := by
        rcases List.mem_cons.1 ht with rfl | ht
        · omega
        · rcases List.mem_cons.1 ht with rfl | ht
          · omega
          · exact ht
      cases pts with
      | nil => simp at ht'
      | cons a pts =>
        obtain ⟨w, hw⟩ := onLine_exists hval (n := n) (p := q) (q := a) (pts := pts) g2 (by omega)
          ⟨t, List.mem_cons_of_mem _ ht', hn⟩
        exact ⟨w, onLine_cons.2 (.inr hw)⟩

/-- The convolution of two step functions: a polygon through the support points, and 0 elsewhere. -/
theorem convolution_spec (hval : ∀ n, val n = u * n) (hu : 0 < u) {Lf Lg : List (ℤ × ℚ)} (hf : IsBump Lf) (hg : IsBump Lg)
    (h2 : 2 ≤ Lf.length) (nf : ¬ Narrow Lf) (ng : ¬ Narrow Lg) :
    ∃ (A B : ℤ) (l : List ℤ) (r : PF), (∀ k, ¬ (A ≤ k ∧ k < B) → stepAt 0 Lf k = 0) ∧
      convolution val (stepFn Lf) (stepFn Lg) = .ok r ∧ r.Disj ∧ l.Pairwise (· < ·) ∧
      (∀ s, s ∈ l ↔ ∃ a ∈ Lf.map Prod.fst, ∃ b ∈ Lg.map Prod.fst, s = a + b) ∧
      (∀ n, ∃ w, r.eval val n = .ok (some w) ∧
        (OnLine val (l.map (fun s => (s, discrete u (stepAt 0 Lf) (stepAt 0 Lg) A B s))) n w ∨
          ((∀ s ∈ l, n < s) ∨ (∀ s ∈ l, s < n)) ∧ w = 0)) ∧
      r.Pairwise (fun s t => RS.Before s.1 t.1) ∧ ∀ s ∈ r, s.1.HalfOpen ∧ Plain s.2 := by
  have hmono : StrictMono val := by
    intro a b hab
    rw [hval, hval]
    have : (a : ℚ) < b := by exact_mod_cast hab
    exact mul_lt_mul_of_pos_left this hu
  obtain ⟨lf, rf, f1, f2, f3, f4⟩ := bump_range hf
  obtain ⟨lg, rg, g1, g2, g3, g4⟩ := bump_range hg
  have hlr : lf < rf := by
    obtain ⟨a, b, t, rfl⟩ : ∃ a b t, Lf = a :: b :: t := by
      match Lf, h2 with
      | a :: b :: t, _ => exact ⟨a, b, t, rfl⟩
    have := (List.pairwise_cons.1 hf.1).1 b (by simp)
    have e1 := (f3 a.1 (by simp)).1
    have e2 := (f3 b.1 (by simp)).2
    omega
  have sf := stepFn_isStep hf.1
  have sg := stepFn_isStep hg.1
  obtain ⟨bf1, bf2⟩ := Num.sortedSet_spec (Lf.map Prod.fst)
  obtain ⟨bg1, bg2⟩ := Num.sortedSet_spec ((Lg.map Prod.fst).map (fun b => -b))
  set bf := Num.sortedSet (Lf.map Prod.fst) with hbf
  set bg := Num.sortedSet ((Lg.map Prod.fst).map (fun b => -b)) with hbg
  have hmin : bf.min? = some lf := by
    rw [List.min?_eq_some_iff]
    exact ⟨(bf2 _).2 f1, fun b hb => (f3 b ((bf2 b).1 hb)).1⟩
  have hmax : bg.max? = some (-lg) := by
    rw [List.max?_eq_some_iff]
    refine ⟨(bg2 _).2 (List.mem_map_of_mem g1), fun b hb => ?_⟩
    obtain ⟨c, hc, rfl⟩ := List.mem_map.1 ((bg2 b).1 hb)
    have := (g3 c hc).1
    omega
  obtain ⟨gm, hgm, sgm⟩ := sg.mirror
  obtain ⟨g', hg', sg'⟩ := sgm.xshift (sub := fun b => b - (-lg - lf)) (d := -lg - lf) (fun n => rfl) (val (-lg - lf))
  have sg'' : IsStep g' (fun k => stepAt 0 Lg (-(-lg - lf) - k)) := by
    have e : (fun k => stepAt 0 Lg (-(-lg - lf) - k)) = fun n => stepAt 0 Lg (-(n + (-lg - lf))) := by
      funext k; congr 1; ring
    rw [e]; exact sg'
  set F := stepAt 0 Lf with hF
  set G := stepAt 0 Lg with hG
  set D := discrete u F G lf rf with hD
  have hy : overlap val (stepFn Lf) g' = .ok (D (-(-lg - lf))) := overlap_step hval hu sf sg'' f4
  obtain ⟨l, k1, k2, k3⟩ := convLoop_spec hval hu sf f4 (bf := bf) (gb := bg) (bf.length * bg.length + 1) g' (-(-lg - lf))
    [(-(-lg - lf), D (-(-lg - lf)))] sg'' (by
      refine lt_of_le_of_lt List.countP_le_length ?_
      have : ((bg.map (· + -(-lg - lf))).flatMap (fun b => bf.map (fun a => b - a))).length = bg.length * bf.length := by
        rw [List.length_flatMap]
        generalize bg = m
        induction m with
        | nil => simp
        | cons a m ih =>
          simp only [List.map_cons, List.sum_cons, List.length_map, List.length_cons] at ih ⊢
          rw [ih]; ring
      rw [this, Nat.mul_comm]
      omega) (by simp)
  have hbgm : bg.map (· - (-lg - lf)) = bg.map (· + -(-lg - lf)) :=
    List.map_congr_left (fun a _ => by ring)
  set z := -(-lg - lf) with hz
  have hzv : z = lf + lg := by rw [hz]; ring
  have hsum : ∀ s, s ∈ z :: l ↔ ∃ a ∈ Lf.map Prod.fst, ∃ b ∈ Lg.map Prod.fst, s = a + b := by
    intro s
    rw [List.mem_cons, k3]
    constructor
    · rintro (rfl | ⟨-, a, ha, c, hc, rfl⟩)
      · exact ⟨lf, f1, lg, g1, hzv⟩
      · obtain ⟨b, hb, rfl⟩ := List.mem_map.1 ((bg2 c).1 hc)
        exact ⟨a, (bf2 a).1 ha, b, hb, by ring⟩
    · rintro ⟨a, ha, b, hb, rfl⟩
      have e1 := (f3 a ha).1
      have e2 := (g3 b hb).1
      by_cases e : a + b = z
      · exact .inl e
      · exact .inr ⟨by omega, a, (bf2 a).2 ha, -b, (bg2 _).2 (List.mem_map_of_mem hb), by ring⟩
  have hsort : (z :: l).Pairwise (· < ·) := List.pairwise_cons.2 ⟨fun s hs => ((k3 s).1 hs).1, k2⟩
  obtain ⟨q, l', rfl⟩ : ∃ q l', l = q :: l' := by
    have : rf + lg ∈ z :: l := (hsum _).2 ⟨rf, f2, lg, g1, rfl⟩
    cases l with
    | nil => simp at this; omega
    | cons q l' => exact ⟨q, l', rfl⟩
  set φ : ℤ → ℤ × ℚ := fun s => (s, D s) with hφ
  have hpts : [(z, D z)] ++ (q :: l').map (fun s => (s, discrete u F G lf rf s)) = φ z :: φ q :: l'.map φ := by
    rfl
  rw [hpts] at k1
  have hsortp : (φ z :: φ q :: l'.map φ).Pairwise (fun a b => a.1 < b.1) := by
    have : φ z :: φ q :: l'.map φ = (z :: q :: l').map φ := rfl
    rw [this, List.pairwise_map]
    exact hsort
  obtain ⟨s0, r0, rp, p1, p2, p3, -, p5⟩ := fromPoints_spec hmono (φ q) (l'.map φ) (φ z) hsortp
  have hrp := closeLast_pieces (fromPointsLoop_pieces hsortp p1) p2
  have hfp : fromPoints val (φ z :: φ q :: l'.map φ) = .ok rp := by
    simp only [fromPoints, bind, Except.bind, p1, p2]
  have hlast : (((φ z :: φ q :: l'.map φ).getLast?).map (·.2)).getD (D z) = 0 := by
    have e : φ z :: φ q :: l'.map φ = (z :: q :: l').map φ := rfl
    rw [e, List.getLast?_map]
    cases hl : (z :: q :: l').getLast? with
    | none => simp at hl
    | some t =>
      simp only [Option.map_some, Option.getD_some, hφ]
      have ht : rf + rg ≤ t := by
        obtain ⟨pre, e⟩ := List.getLast?_eq_some_iff.1 hl
        have hm : rf + rg ∈ z :: q :: l' := (hsum _).2 ⟨rf, f2, rg, g2, rfl⟩
        rw [e] at hm hsort
        rcases List.mem_append.1 hm with hm | hm
        · exact le_of_lt ((List.pairwise_append.1 hsort).2.2 _ hm t (by simp))
        · rw [List.mem_singleton.1 hm]
      rw [hD]
      unfold discrete
      rw [Finset.sum_eq_zero, mul_zero]
      intro k hk
      rw [Finset.mem_Ico] at hk
      rw [g4 (t - k) (by omega), mul_zero]
  have hR : CS.allnumbers.HalfOpen := by decide +kernel
  have hun : nsUnion (.cs CS.allnumbers) (.cs CS.allnumbers) = .ok (.cs CS.allnumbers) := by decide +kernel
  have heq : CS.allnumbers.eq CS.allnumbers = true := by decide +kernel
  obtain ⟨r1, q1, q2, q3, q4⟩ := overwrite_fold (q := rp) (r0 := [(CS.allnumbers, .const 0)]) hrp (sorted_disj p5)
    (by simpa using ⟨hR, .inl ⟨0, rfl⟩⟩) (by simp [Disj])
  obtain ⟨r, hr⟩ := simplify_ok (fun s hs => norm_ne (q2 s hs).1) q3 (fun s hs t _ => eq_ok_of_ne_undef (q2 s hs).2.ne)
  obtain ⟨v1, v2, v3⟩ := simplify_spec (val := val) (fun s hs => norm_ne (q2 s hs).1) hr
  refine ⟨lf, rf, z :: q :: l', r, f4, ?_, sorted_disj v3, hsort, hsum, fun n => ?_, v3,
    fun s hs => ⟨simplify_halfOpen (fun s hs => (q2 s hs).1) hr s hs, simplify_fns (P := Plain) (fun s hs => (q2 s hs).2) hr s hs⟩⟩
  · have hsl : (stepFn Lf ++ stepFn Lg).any (fun s => slanted s.2) = false := by
      rw [List.any_eq_false]
      intro s hs
      rcases List.mem_append.1 hs with hs | hs
      · obtain ⟨c, hc⟩ := sf.fns s hs
        rw [hc]; simp [slanted]
      · obtain ⟨c, hc⟩ := sg.fns s hs
        rw [hc]; simp [slanted]
    simp only [convolution, bind, Except.bind, not_impulse nf, not_impulse ng, hsl, Bool.false_eq_true, if_false,
      stepFn_bounds, ← hbf, ← hbg, hmax, hmin, hgm, hg', hy, hbgm, ← hz, k1, sf.domain, sg.domain, hun, RS.pieces,
      hlast, convBase, List.head?_cons, List.getLast?_singleton, heq, if_true, hfp, q1, hr]
  · have hval' : ∀ w, r.eval val n = .ok (some w) ↔ Value val rp n (some w) ∨ (¬ rp.Covers n ∧ w = 0) := by
      intro w
      rw [eval_ok_iff (sorted_disj v3), v1, q4]
      have : Value val [(CS.allnumbers, Fn.const 0)] n (some w) ↔ w = 0 := by
        have hm : CS.allnumbers.Mem (fin n) := by
          rw [hR.mem_iff]; simp [CS.allnumbers, FP.le_def, FP.lt_def, leb]
        simp [Value, hm, Fn.eval, eq_comm]
      rw [this]
    by_cases hc : rp.Covers n
    · obtain ⟨s, hs, hm⟩ := hc
      obtain ⟨w, hw, hl⟩ := (p3 n _).1 ⟨s, hs, hm, rfl⟩
      exact ⟨w, (hval' w).2 (.inl ⟨s, hs, hm, hw⟩), .inl hl⟩
    · refine ⟨0, (hval' 0).2 (.inr ⟨hc, rfl⟩), .inr ⟨?_, rfl⟩⟩
      by_contra hcon
      simp only [not_or, not_forall, not_lt, exists_prop] at hcon
      obtain ⟨⟨s, hs, hs'⟩, t, ht, ht'⟩ := hcon
      have hzn : z ≤ n := by
        rcases List.mem_cons.1 hs with rfl | hs
        · exact hs'
        · exact le_trans (le_of_lt ((List.pairwise_cons.1 hsort).1 s hs)) hs'
      obtain ⟨w, hw⟩ := onLine_exists hmono (n := n) hsortp hzn ⟨φ t, List.mem_map_of_mem (f := φ) ht, ht'⟩
      obtain ⟨x, hx, hm, -⟩ := (p3 n (some w)).2 ⟨w, rfl, hw⟩
      exact hc ⟨x, hx, hm⟩

end Verif.Fun.PF
