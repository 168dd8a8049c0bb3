import Verif.Functions.Lemmas3
import Mathlib.Order.Monotone.Basic
import Mathlib.Tactic.Linarith

/-!
# Lemmas about shifting, splitting, comparing and interpolating
-/

namespace Verif.Fun

open Iv Iv.FP

namespace PF

/-- The bound `b` moved by the subtraction in `xshift`. -/
def mv (sub : ℤ → ℤ) : FP → FP
  | fin n => fin (sub n)
  | b => b

theorem mv_lt {val : ℤ → ℚ} (hval : StrictMono val) {sub : ℤ → ℤ} {d : ℚ} {b : FP} {n k : ℤ}
    (hb : ∀ m, b = fin m → val (sub m) = val m - d) (hk : val k = val n + d) :
    (mv sub b < fin n ↔ b < fin k) ∧ (mv sub b = fin n ↔ b = fin k) ∧
      (fin n < mv sub b ↔ fin k < b) := by
  cases b with
  | ninf => simp [mv, FP.lt_def, leb]
  | pinf => simp [mv, FP.lt_def, leb]
  | fin m =>
    have h := hb m rfl
    have e1 : sub m < n ↔ m < k := by
      rw [← hval.lt_iff_lt, ← hval.lt_iff_lt (a := m), h, hk]; constructor <;> intro h <;> linarith
    have e2 : n < sub m ↔ k < m := by
      rw [← hval.lt_iff_lt, ← hval.lt_iff_lt (a := k), h, hk]; constructor <;> intro h <;> linarith
    refine ⟨?_, ?_, ?_⟩
    · simpa [mv, FP.lt_def, leb] using e1
    · simp only [mv, fin.injEq]; omega
    · simpa [mv, FP.lt_def, leb] using e2

theorem mv_mem {val : ℤ → ℚ} (hval : StrictMono val) {sub : ℤ → ℤ} {d : ℚ} {i : CS} {n k : ℤ}
    (hb : ∀ m, i.lower = fin m ∨ i.upper = fin m → val (sub m) = val m - d)
    (hk : val k = val n + d) :
    ({ i with lower := mv sub i.lower, upper := mv sub i.upper } : CS).Mem (fin n) ↔ i.Mem (fin k) := by
  obtain ⟨a1, a2, -⟩ := mv_lt hval (b := i.lower) (fun m hm => hb m (.inl hm)) hk
  obtain ⟨-, b2, b3⟩ := mv_lt hval (b := i.upper) (fun m hm => hb m (.inr hm)) hk
  simp only [CS.Mem]
  rw [a1, a2, b3, eq_comm (a := fin n), b2, eq_comm (a := fin k)]

theorem xshift_forall₂ {sub : ℤ → ℤ} {p r : PF} {d : ℚ} (h : xshift sub p d = .ok r) :
    List.Forall₂ (fun s t => t.1 = { s.1 with lower := mv sub s.1.lower, upper := mv sub s.1.upper } ∧
      s.2.xshift d = .ok t.2) p r := by
  simp only [xshift] at h
  rw [mapM_ok_iff] at h
  refine h.imp (fun {s t} hst => ?_)
  cases hF : s.2.xshift d with
  | error e => simp [hF, Except.map] at hst
  | ok g =>
    simp only [hF, Except.map, Except.ok.injEq] at hst
    subst hst
    refine ⟨?_, rfl⟩
    obtain ⟨⟨l, u, a, b⟩, f⟩ := s
    cases l <;> cases u <;> rfl

theorem find?_forall₂ {α β : Type} {R : α → β → Prop} {P : α → Bool} {Q : β → Bool} {l : List α}
    {r : List β} (h : List.Forall₂ R l r) (hPQ : ∀ a ∈ l, ∀ b, R a b → P a = Q b) :
    Option.Rel R (l.find? P) (r.find? Q) := by
  induction h with
  | nil => exact .none
  | @cons a b l r hab h ih =>
    simp only [List.find?_cons]
    rw [← hPQ a (by simp) b hab]
    cases P a with
    | true => exact .some hab
    | false => exact ih (fun a ha b => hPQ a (by simp [ha]) b)

theorem xshift_eval {val : ℤ → ℚ} (hval : StrictMono val) {sub : ℤ → ℤ} {p r : PF} {d : ℚ}
    (h : xshift sub p d = .ok r) (hb : ∀ s ∈ p, ∀ m, s.1.lower = fin m ∨ s.1.upper = fin m →
      val (sub m) = val m - d) {n k : ℤ} (hk : val k = val n + d) :
    r.eval val n = p.eval val k := by
  have := find?_forall₂ (P := fun s => hit (fin k) s.1) (Q := fun s => hit (fin n) s.1)
    (xshift_forall₂ h) (fun s hs t hst => by
      rw [hit_fin, hit_fin, hst.1, Bool.eq_iff_iff, CS.containsValue_iff, CS.containsValue_iff,
        mv_mem hval (fun m hm => hb s hs m hm) hk])
  unfold eval atPos
  cases h1 : p.find? (fun s => hit (fin k) s.1) with
  | none =>
    rw [h1] at this
    cases h2 : r.find? (fun s => hit (fin n) s.1) with
    | none => rfl
    | some t => rw [h2] at this; cases this
  | some s =>
    rw [h1] at this
    cases h2 : r.find? (fun s => hit (fin n) s.1) with
    | none => rw [h2] at this; cases this
    | some t =>
      rw [h2] at this
      cases this with
      | some hst =>
        simp only [Option.map_some]
        rw [Fn.xshift_eval hst.2, hk]

theorem xshift_ok {sub : ℤ → ℤ} {d : ℚ} {p : PF} (h : ∀ s ∈ p, ∀ a b c, s.2 ≠ .quad a b c) :
    ∃ r, xshift sub p d = .ok r := by
  unfold xshift
  induction p with
  | nil => exact ⟨[], rfl⟩
  | cons s p ih =>
    obtain ⟨r, hr⟩ := ih (fun t ht => h t (by simp [ht]))
    have hs := h s (by simp)
    obtain ⟨g, hg⟩ : ∃ g, s.2.xshift d = .ok g := by
      cases hf : s.2 with
      | quad a b c => exact absurd hf (hs a b c)
      | undef => exact ⟨_, rfl⟩
      | const v => exact ⟨_, rfl⟩
      | lin m c => exact ⟨_, rfl⟩
    simp only [List.mapM_cons, hg]
    exact ⟨_, by simp only at hr; rw [hr]; rfl⟩

theorem split_spec {val : ℤ → ℚ} {x : ℤ} : ∀ {p pre : PF} {a b : PF},
    p.Pairwise (fun s t => RS.Before s.1 t.1) → (∀ s ∈ pre, ∀ t ∈ p, RS.Before s.1 t.1) →
    splitLoop (fin x) pre p = .ok (a, b) →
    (∀ n v, Value val a n v ↔ Value val (pre ++ p) n v ∧ n < x) ∧
    (∀ n v, Value val b n v ↔ Value val (pre ++ p) n v ∧ x ≤ n)
  | [], _, _, _, _, _, h => by simp [splitLoop] at h
  | (i, f) :: p, pre, a, b, hp, hb, h => by
    obtain ⟨hp1, hp2⟩ := List.pairwise_cons.1 hp
    simp only [splitLoop] at h
    split at h
    · rename_i hc
      rw [CS.containsValue_iff] at hc
      simp only [Except.ok.injEq, Prod.mk.injEq] at h
      obtain ⟨rfl, rfl⟩ := h
      have hpre : ∀ s ∈ pre, ∀ n, s.1.Mem (fin n) → n < x := fun s hs n hm => by
        have := hb s hs (i, f) (by simp) _ _ hm hc
        simpa [FP.lt_def, leb] using this
      have hpost : ∀ s ∈ p, ∀ n, s.1.Mem (fin n) → x < n := fun s hs n hm => by
        have := hp1 s hs _ _ hc hm
        simpa [FP.lt_def, leb] using this
      have hi1 : ∀ n, ({ i with upper := fin x, right := .exc } : CS).Mem (fin n) ↔ i.Mem (fin n) ∧ n < x := by
        intro n
        have e : fin n < fin x ↔ n < x := by simp [FP.lt_def, leb]
        revert hc
        simp only [CS.Mem, reduceCtorEq, and_false, or_false, e]
        grind
      have hi2 : ∀ n, ({ i with lower := fin x, left := .inc } : CS).Mem (fin n) ↔ i.Mem (fin n) ∧ x ≤ n := by
        intro n
        have e : fin x < fin n ↔ x < n := by simp [FP.lt_def, leb]
        revert hc
        simp only [CS.Mem, fin.injEq, and_true, e]
        grind
      constructor
      · intro n v
        simp only [Value, List.mem_append, List.mem_cons, List.not_mem_nil, or_false]
        constructor
        · rintro ⟨s, hs | rfl, hm, he⟩
          · exact ⟨⟨s, .inl hs, hm, he⟩, hpre s hs n hm⟩
          · exact ⟨⟨(i, f), .inr (.inl rfl), ((hi1 n).1 hm).1, he⟩, ((hi1 n).1 hm).2⟩
        · rintro ⟨⟨s, hs | rfl | hs, hm, he⟩, hlt⟩
          · exact ⟨s, .inl hs, hm, he⟩
          · exact ⟨_, .inr rfl, (hi1 n).2 ⟨hm, hlt⟩, he⟩
          · have := hpost s hs n hm; omega
      · intro n v
        simp only [Value, List.mem_append, List.mem_cons]
        constructor
        · rintro ⟨s, rfl | hs, hm, he⟩
          · exact ⟨⟨(i, f), .inr (.inl rfl), ((hi2 n).1 hm).1, he⟩, ((hi2 n).1 hm).2⟩
          · exact ⟨⟨s, .inr (.inr hs), hm, he⟩, le_of_lt (hpost s hs n hm)⟩
        · rintro ⟨⟨s, hs | rfl | hs, hm, he⟩, hlt⟩
          · have := hpre s hs n hm; omega
          · exact ⟨_, .inl rfl, (hi2 n).2 ⟨hm, hlt⟩, he⟩
          · exact ⟨s, .inr hs, hm, he⟩
    · have := split_spec (val := val) (pre := pre ++ [(i, f)]) hp2 (by
        intro s hs t ht
        rcases List.mem_append.1 hs with hs | hs
        · exact hb s hs t (by simp [ht])
        · simp only [List.mem_singleton] at hs; subst hs; exact hp1 t ht) h
      simpa using this

theorem splitLoop_ok {x : ℤ} : ∀ {p pre : PF}, (∃ r, splitLoop (fin x) pre p = .ok r) ↔ p.Covers x
  | [], pre => by simp [splitLoop, Covers]
  | (i, f) :: p, pre => by
    simp only [splitLoop, Covers, List.mem_cons, exists_eq_or_imp]
    split
    · rename_i h; rw [CS.containsValue_iff] at h; simp [h]
    · rename_i h; rw [CS.containsValue_iff] at h
      rw [splitLoop_ok]; simp [h, Covers]

theorem cs_eq_mem {i j : CS} (hi : Ne i) (hj : Ne j) (h : i.eq j = true) (n : ℤ) :
    i.Mem (fin n) ↔ j.Mem (fin n) := by
  rw [mem_fin_iff hi.2.1, mem_fin_iff hj.2.1]
  simp only [CS.eq, hi.2.2, hj.2.2, Bool.or_eq_true, Bool.and_eq_true, decide_eq_true_eq,
    Bool.false_eq_true, and_self, or_false] at h
  rw [h.1, h.2]

/-- Two functions with the same number of pieces that compare equal have the same pieces. -/
theorem eq_forall₂ : ∀ {p q : PF}, p.length = q.length → eq p q = .ok true →
    List.Forall₂ (fun s t => s.1.eq t.1 = true ∧ s.2.eq t.2 = .ok true) p q
  | [], [], _, _ => .nil
  | (i, f) :: p, (j, g) :: q, hl, h => by
    simp only [eq] at h
    split at h
    · simp at h
    · rename_i hij
      cases hfg : f.eq g with
      | error e => simp [hfg] at h
      | ok b =>
        cases b with
        | false => simp [hfg] at h
        | true =>
          simp only [hfg] at h
          exact .cons ⟨by simpa using hij, hfg⟩ (eq_forall₂ (by simpa using hl) h)

theorem forall₂_eq : ∀ {p q : PF},
    List.Forall₂ (fun s t => s.1.eq t.1 = true ∧ s.2.eq t.2 = .ok true) p q → eq p q = .ok true
  | [], [], _ => rfl
  | (i, f) :: p, (j, g) :: q, .cons ⟨h1, h2⟩ h => by
    simp only at h1 h2
    simp [eq, h1, h2, forall₂_eq h]

/-! ### `from_points` -/

/-- `v` lies on one of the line segments between consecutive points, at the abscissa `val n`. -/
def OnLine (val : ℤ → ℚ) (pts : List (ℤ × ℚ)) (n : ℤ) (v : ℚ) : Prop :=
  ∃ pre p q post, pts = pre ++ p :: q :: post ∧ p.1 ≤ n ∧ n ≤ q.1 ∧
    (v - p.2) * (val q.1 - val p.1) = (q.2 - p.2) * (val n - val p.1)

theorem onLine_cons {val : ℤ → ℚ} {p q : ℤ × ℚ} {post : List (ℤ × ℚ)} {n : ℤ} {v : ℚ} :
    OnLine val (p :: q :: post) n v ↔ (p.1 ≤ n ∧ n ≤ q.1 ∧
      (v - p.2) * (val q.1 - val p.1) = (q.2 - p.2) * (val n - val p.1)) ∨ OnLine val (q :: post) n v := by
  constructor
  · rintro ⟨pre, a, b, po, e, h1, h2, h3⟩
    cases pre with
    | nil =>
      simp only [List.nil_append, List.cons.injEq] at e
      obtain ⟨rfl, rfl, rfl⟩ := e
      exact .inl ⟨h1, h2, h3⟩
    | cons c pre =>
      simp only [List.cons_append, List.cons.injEq] at e
      exact .inr ⟨pre, a, b, po, e.2, h1, h2, h3⟩
  · rintro (⟨h1, h2, h3⟩ | ⟨pre, a, b, po, e, h1, h2, h3⟩)
    · exact ⟨[], p, q, post, rfl, h1, h2, h3⟩
    · exact ⟨p :: pre, a, b, po, by simp [e], h1, h2, h3⟩

theorem fromPoints_eval {val : ℤ → ℚ} (hval : StrictMono val) {p q : ℤ × ℚ} (h : p.1 < q.1) :
    ∃ f, Fn.fromPoints (val p.1, p.2) (val q.1, q.2) = .ok f ∧ ∀ n w, f.eval (val n) = some w ↔
      (w - p.2) * (val q.1 - val p.1) = (q.2 - p.2) * (val n - val p.1) := by
  have hne : val p.1 ≠ val q.1 := ne_of_lt (hval h)
  have hd : val q.1 - val p.1 ≠ 0 := sub_ne_zero.2 (Ne.symm hne)
  by_cases hy : q.2 = p.2
  · refine ⟨.const q.2, by simp [Fn.fromPoints, hne, hy], fun n w => ?_⟩
    simp only [Fn.eval, Option.some.injEq, hy, sub_self, zero_mul, mul_eq_zero, hd, or_false]
    rw [sub_eq_zero, eq_comm]
  · refine ⟨_, by simp only [Fn.fromPoints, if_neg hne, if_neg hy]; rfl, fun n w => ?_⟩
    simp only [Fn.eval, Option.some.injEq]
    constructor
    · rintro rfl; field_simp; ring
    · intro e
      field_simp
      linear_combination -e

theorem closeLast_cons2 (s t : CS × Fn) (r : PF) :
    closeLast (s :: t :: r) = (closeLast (t :: r)).map (s :: ·) := by
  simp only [closeLast, bind, Except.bind]
  cases closeLast (t :: r) <;> rfl

theorem fromPoints_spec {val : ℤ → ℚ} (hval : StrictMono val) : ∀ (q : ℤ × ℚ) (pts : List (ℤ × ℚ))
    (p : ℤ × ℚ), (p :: q :: pts).Pairwise (fun a b => a.1 < b.1) →
    ∃ (s : CS × Fn) (r0 r : PF), fromPointsLoop val (p :: q :: pts) = .ok (s :: r0) ∧
      closeLast (s :: r0) = .ok r ∧
      (∀ n v, Value val r n v ↔ ∃ w, v = some w ∧ OnLine val (p :: q :: pts) n w) ∧
      (∀ t ∈ r, ∀ x, t.1.Mem x → fin p.1 ≤ x) ∧
      r.Pairwise (fun s t => RS.Before s.1 t.1)
  | q, [], p, hp => by
    have hlt : p.1 < q.1 := (List.pairwise_cons.1 hp).1 q (by simp)
    obtain ⟨f, hf, hfe⟩ := fromPoints_eval hval hlt
    have hwf : ¬ fin p.1 > fin q.1 := by simp [FP.lt_def, leb]; omega
    have hne : CS.isempty ⟨fin p.1, fin q.1, .inc, .exc⟩ = false := by
      have : (p.1 : ℤ) ≠ q.1 := ne_of_lt hlt
      simp [CS.isempty, hwf, this, CS.itype, Br.code]
    have hloop : fromPointsLoop val [p, q] = .ok [(⟨fin p.1, fin q.1, .inc, .exc⟩, f)] := by
      simp [fromPointsLoop, CS.mk?, hwf, bind, Except.bind, hne, hf]
    have hclose : closeLast [(⟨fin p.1, fin q.1, .inc, .exc⟩, f)] =
        .ok [(⟨fin p.1, fin (q.1 + 1), .inc, .exc⟩, f)] := by
      simp [closeLast, CS.ends, CS.mk?, isInf, hwf, bind, Except.bind, up]
    refine ⟨_, _, _, hloop, hclose, fun n v => ?_, ?_, by simp⟩
    · simp only [Value, List.mem_singleton, exists_eq_left]
      have hm : (⟨fin p.1, fin (q.1 + 1), .inc, .exc⟩ : CS).Mem (fin n) ↔ p.1 ≤ n ∧ n ≤ q.1 := by
        simp [CS.Mem, FP.lt_def, leb]; omega
      rw [hm]
      have hol : ∀ w, OnLine val [p, q] n w ↔ (p.1 ≤ n ∧ n ≤ q.1 ∧
          (w - p.2) * (val q.1 - val p.1) = (q.2 - p.2) * (val n - val p.1)) := by
        intro w
        rw [onLine_cons]
        refine or_iff_left ?_
        rintro ⟨pre, a, b, post, e, -⟩
        have := congrArg List.length e
        simp at this
        omega
      constructor
      · rintro ⟨h1, h2⟩
        cases v with
        | none =>
          obtain ⟨w, hw⟩ : ∃ w, f.eval (val n) = some w := by
            cases f with
            | undef => unfold Fn.fromPoints at hf; simp only at hf; split at hf <;> [skip; split at hf] <;> simp at hf
            | const v => exact ⟨_, rfl⟩
            | lin m c => exact ⟨_, rfl⟩
            | quad a b c => exact ⟨_, rfl⟩
          rw [hw] at h2; simp at h2
        | some w => exact ⟨w, rfl, (hol w).2 ⟨h1.1, h1.2, (hfe n w).1 h2⟩⟩
      · rintro ⟨w, rfl, hw⟩
        obtain ⟨h1, h2, h3⟩ := (hol w).1 hw
        exact ⟨⟨h1, h2⟩, (hfe n w).2 h3⟩
    · intro t ht x hx
      simp only [List.mem_singleton] at ht
      subst ht
      revert hx; simp only [CS.Mem]; grind
  | q, q' :: pts, p, hp => by
    obtain ⟨hp1, hp2⟩ := List.pairwise_cons.1 hp
    have hlt : p.1 < q.1 := hp1 q (by simp)
    have hlt2 : q.1 < q'.1 := (List.pairwise_cons.1 hp2).1 q' (by simp)
    obtain ⟨s, r0, r, h1, h2, h3, h4, h5⟩ := fromPoints_spec hval q' pts q hp2
    obtain ⟨f, hf, hfe⟩ := fromPoints_eval hval hlt
    have hwf : ¬ fin p.1 > fin q.1 := by simp [FP.lt_def, leb]; omega
    have hne : CS.isempty ⟨fin p.1, fin q.1, .inc, .exc⟩ = false := by
      have : (p.1 : ℤ) ≠ q.1 := ne_of_lt hlt
      simp [CS.isempty, hwf, this, CS.itype, Br.code]
    have hloop : fromPointsLoop val (p :: q :: q' :: pts) =
        .ok ((⟨fin p.1, fin q.1, .inc, .exc⟩, f) :: s :: r0) := by
      rw [fromPointsLoop]
      simp only [CS.mk?, if_neg hwf, bind, Except.bind, hne, hf, h1]
      rfl
    refine ⟨_, _, (⟨fin p.1, fin q.1, .inc, .exc⟩, f) :: r, hloop, ?_, fun n v => ?_, ?_, ?_⟩
    · rw [closeLast_cons2, h2]; rfl
    · have hm : (⟨fin p.1, fin q.1, .inc, .exc⟩ : CS).Mem (fin n) ↔ p.1 ≤ n ∧ n < q.1 := by
        simp [CS.Mem, FP.lt_def, leb]; omega
      have := h3 n v
      have hsome : ∃ w, f.eval (val n) = some w := by
        cases f with
        | undef => unfold Fn.fromPoints at hf; simp only at hf; split at hf <;> [skip; split at hf] <;> simp at hf
        | const v => exact ⟨_, rfl⟩
        | lin m c => exact ⟨_, rfl⟩
        | quad a b c => exact ⟨_, rfl⟩
      simp only [Value, List.mem_cons, exists_eq_or_imp] at this ⊢
      rw [hm]
      constructor
      · rintro (⟨⟨g1, g2⟩, g3⟩ | h)
        · obtain ⟨w, hw⟩ := hsome
          rw [hw] at g3; subst g3
          exact ⟨w, rfl, onLine_cons.2 (.inl ⟨g1, le_of_lt g2, (hfe n w).1 hw⟩)⟩
        · obtain ⟨w, rfl, hw⟩ := this.1 h
          exact ⟨w, rfl, onLine_cons.2 (.inr hw)⟩
      · rintro ⟨w, rfl, hw⟩
        rcases onLine_cons.1 hw with ⟨g1, g2, g3⟩ | hw
        · rcases lt_or_eq_of_le g2 with g2 | rfl
          · exact .inl ⟨⟨g1, g2⟩, (hfe n w).2 g3⟩
          · right
            apply this.2
            refine ⟨w, rfl, onLine_cons.2 (.inl ⟨le_rfl, le_of_lt hlt2, ?_⟩)⟩
            have hd : val q.1 - val p.1 ≠ 0 := sub_ne_zero.2 (ne_of_gt (hval hlt))
            have : w = q.2 := by
              have := mul_right_cancel₀ hd g3
              linarith
            rw [this]; ring
        · exact .inr (this.2 ⟨w, rfl, hw⟩)
    · intro t ht x hx
      rcases List.mem_cons.1 ht with rfl | ht
      · revert hx; simp only [CS.Mem]; grind
      · have : fin p.1 < fin q.1 := by simp [FP.lt_def, leb]; omega
        exact le_trans (le_of_lt this) (h4 t ht x hx)
    · refine List.pairwise_cons.2 ⟨fun t ht x y hx hy => ?_, h5⟩
      have h6 := h4 t ht y hy
      have h7 : x < fin q.1 := by revert hx; simp only [CS.Mem]; grind
      exact lt_of_lt_of_le h7 h6

end PF
end Verif.Fun
