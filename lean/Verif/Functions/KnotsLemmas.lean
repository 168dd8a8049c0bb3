import Verif.Functions.KnotsSpec
import Verif.Functions.Props

/-! # Lemmas about knots and rounding -/

namespace Verif.Fun

open Iv Iv.FP Iv.CS

namespace PF

variable {val : ℤ → ℚ}

theorem valueAt_eval {f : Fn} (hf : (∃ v, f = .const v) ∨ ∃ m c, f = .lin m c) (a : ℤ) :
    ∃ y, f.eval (val a) = some y ∧ f.valueAt (pos val (fin a)) = some (.fin y) := by
  rcases hf with ⟨v, rfl⟩ | ⟨m, c, rfl⟩
  · exact ⟨v, rfl, rfl⟩
  · exact ⟨m * val a + c, rfl, rfl⟩

theorem straight_interp {f : Fn} (hf : (∃ v, f = .const v) ∨ ∃ m c, f = .lin m c) {xa xb xn ya yb yn : ℚ}
    (ha : f.eval xa = some ya) (hb : f.eval xb = some yb) (hn : f.eval xn = some yn) :
    (yn - ya) * (xb - xa) = (yb - ya) * (xn - xa) := by
  rcases hf with ⟨v, rfl⟩ | ⟨m, c, rfl⟩ <;> simp only [Fn.eval, Option.some.injEq] at ha hb hn <;> subst ha hb hn <;> ring

/-- The knots of a polyline and what lies between them. -/
theorem knots_list (p : PF) : ∀ s : CS × Fn, Polyline val (s :: p) →
    ∃ (q r : ℤ × ℚ) (pts : List (ℤ × ℚ)), s.1.lower = fin q.1 ∧ s.2.eval (val q.1) = some q.2 ∧
      knots val (s :: p) = .ok ((q :: r :: pts).map (fun k => (fin k.1, some (.fin k.2)))) ∧
      (q :: r :: pts).Pairwise (fun a b => a.1 < b.1) ∧
      ∀ n v, PF.Value val (s :: p) n v → ∃ w, v = some w ∧ ∃ pre a b post, q :: r :: pts = pre ++ a :: b :: post ∧
        a.1 ≤ n ∧ n ≤ b.1 ∧ (w - a.2) * (val b.1 - val a.1) = (b.2 - a.2) * (val n - val a.1) := by
  induction p with
  | nil =>
    intro s h
    obtain ⟨a, b, hab, hs⟩ := h.bounded s (by simp)
    have hst := h.straight s (by simp)
    obtain ⟨ya, h1, h2⟩ := valueAt_eval (val := val) hst a
    obtain ⟨yb, h3, h4⟩ := valueAt_eval (val := val) hst b
    refine ⟨(a, ya), (b, yb), [], by rw [hs], h1, ?_, by simpa using hab, ?_⟩
    · simp [knots, hs, h2, h4]
    · rintro n v ⟨t, ht, hm, hv⟩
      obtain rfl : t = s := by simpa using ht
      obtain ⟨y, h5, -⟩ := valueAt_eval (val := val) hst n
      rw [h5] at hv
      rw [hs] at hm
      simp [CS.Mem, FP.lt_def, leb] at hm
      exact ⟨y, hv.symm, [], (a, ya), (b, yb), [], rfl, by simp only; omega, by simp only; omega, straight_interp hst h1 h3 h5⟩
  | cons t p ih =>
    intro s h
    obtain ⟨a, b, hab, hs⟩ := h.bounded s (by simp)
    have hst := h.straight s (by simp)
    obtain ⟨ya, h1, h2⟩ := valueAt_eval (val := val) hst a
    have hc := h.continuous
    rw [List.isChain_cons_cons] at hc
    obtain ⟨⟨hadj, hcont⟩, hc'⟩ := hc
    obtain ⟨q, r, pts, k1, k2, k3, k4, k5⟩ := ih t ⟨by simp, fun x hx => h.bounded x (by simp [List.mem_cons.1 hx]),
      fun x hx => h.straight x (by simp [List.mem_cons.1 hx]), hc'⟩
    have hqb : q.1 = b := by
      rw [k1, hs] at hadj
      simpa using hadj.symm
    have hsq : s.2.eval (val q.1) = some q.2 := by
      rw [← k2, ← hcont q.1 (by rw [hs, hqb])]
    refine ⟨(a, ya), q, r :: pts, by rw [hs], h1, ?_, ?_, ?_⟩
    · have : knots val (s :: t :: p) = (knots val (t :: p)).map (fun l => (fin a, some (.fin ya)) :: l) := by
        unfold knots
        simp only [List.getLast?_cons_cons]
        cases hl : (t :: p).getLast? with
        | none => simp at hl
        | some z =>
          simp only
          split_ifs <;> simp [Except.map, hs, h2]
      rw [this, k3]
      rfl
    · rw [List.pairwise_cons]
      refine ⟨fun x hx => ?_, k4⟩
      rcases List.mem_cons.1 hx with rfl | hx
      · simp only; omega
      · have := (List.pairwise_cons.1 k4).1 x hx
        simp only
        omega
    · rintro n v ⟨u, hu, hm, hv⟩
      rcases List.mem_cons.1 hu with rfl | hu
      · obtain ⟨y, h5, -⟩ := valueAt_eval (val := val) hst n
        rw [h5] at hv
        rw [hs] at hm
        simp [CS.Mem, FP.lt_def, leb] at hm
        exact ⟨y, hv.symm, [], (a, ya), q, r :: pts, rfl, by simp only; omega, by omega, straight_interp hst h1 hsq h5⟩
      · obtain ⟨w, e, pre, x, y, post, e2, e3⟩ := k5 n v ⟨u, hu, hm, hv⟩
        exact ⟨w, e, (a, ya) :: pre, x, y, post, by rw [e2]; rfl, e3⟩

theorem polyline_disj {p : PF} (h : ∀ s ∈ p, ∃ a b : ℤ, a < b ∧ s.1 = ⟨fin a, fin b, .inc, .exc⟩)
    (hc : p.IsChain (fun s t => s.1.upper = t.1.lower)) : p.Pairwise (fun s t => s.1.upper ≤ t.1.lower) := by
  have : p.IsChain (fun s t => s.1.upper ≤ t.1.lower ∧ t.1.lower < t.1.upper) := by
    induction p with
    | nil => exact .nil
    | cons s p ih =>
      cases p with
      | nil => exact .singleton _
      | cons t p =>
        rw [List.isChain_cons_cons] at hc ⊢
        refine ⟨⟨hc.1.le, ?_⟩, ih (fun s hs => h s (by simp [List.mem_cons.1 hs])) hc.2⟩
        obtain ⟨a, b, hab, e⟩ := h t (by simp)
        rw [e]
        simp [FP.lt_def, leb, hab]
  have htr : IsTrans (CS × Fn) (fun s t => s.1.upper ≤ t.1.lower ∧ t.1.lower < t.1.upper) :=
    ⟨fun x y z h1 h2 => ⟨h1.1.trans (h1.2.le.trans h2.1), h2.2⟩⟩
  exact (List.isChain_iff_pairwise.1 this).imp (fun h => h.1)

theorem contiguous_sorted {p : PF} (h : Contiguous p) : p.Pairwise (fun s t => s.1.upper ≤ t.1.lower) := by
  have : p.IsChain (fun s t => s.1.upper ≤ t.1.lower ∧ t.1.lower < t.1.upper) := by
    obtain ⟨h1, h2⟩ := h
    induction p with
    | nil => exact .nil
    | cons s p ih =>
      cases p with
      | nil => exact .singleton _
      | cons t p =>
        rw [List.isChain_cons_cons] at h2 ⊢
        exact ⟨⟨h2.1.le, (h1 t (by simp)).1⟩, ih (fun s hs => h1 s (by simp [List.mem_cons.1 hs])) h2.2⟩
  have htr : IsTrans (CS × Fn) (fun s t => s.1.upper ≤ t.1.lower ∧ t.1.lower < t.1.upper) :=
    ⟨fun x y z h1 h2 => ⟨h1.1.trans (h1.2.le.trans h2.1), h2.2⟩⟩
  exact (List.isChain_iff_pairwise.1 this).imp (fun h => h.1)

theorem sorted_disjoint {p : PF} (hr : ∀ s ∈ p, s.1.right = .exc) (h : p.Pairwise (fun s t => s.1.upper ≤ t.1.lower)) : p.Disj := by
  have := List.Pairwise.and_mem.1 h
  refine this.imp ?_
  rintro s t ⟨hs, ht, hle⟩ x ⟨h1, h2⟩
  have hr' := hr s hs
  simp only [CS.Mem, hr', reduceCtorEq, and_false, or_false] at h1 h2
  have := h1.2
  rcases h2.1 with h | ⟨h, -⟩
  · exact absurd (this.trans_le hle) (not_lt.2 h.le)
  · exact absurd (this.trans_le hle) (not_lt.2 h.le)

theorem roundPos_mono {rx : ℤ → ℤ} (h : Monotone rx) {a b : FP} (hab : a ≤ b) : roundPos rx a ≤ roundPos rx b := by
  cases a <;> cases b <;> simp_all [roundPos, FP.le_def, leb]
  exact h hab

theorem paired_left {α β : Type} {R : α → β → Prop} {l : List α} {r : List β}
    (h : List.Forall₂ R l r) {a : α} (ha : a ∈ l) : ∃ b ∈ r, R a b := by
  induction h with
  | nil => simp at ha
  | cons h1 _ ih =>
    rcases List.mem_cons.1 ha with rfl | ha
    · exact ⟨_, by simp, h1⟩
    · obtain ⟨b, hb, h2⟩ := ih ha
      exact ⟨b, by simp [hb], h2⟩

/-- What `round` returns. -/
theorem round_list {rx : ℤ → ℤ} {rq : ℚ → ℚ} {p : PF} {inc : Bool} {r : PF} (h : round rx rq p inc = .ok r) :
    List.Forall₂ (fun (s t : CS × Fn) => t.1 = (if inc then
      (⟨roundPos rx s.1.lower, roundPos rx s.1.upper, s.1.left, s.1.right⟩ : CS) else s.1) ∧ roundFn rq s.2 = .ok t.2) p r := by
  unfold round at h
  have := (mapM_ok_iff _ _ _).1 h
  refine this.imp ?_
  intro s t h
  simp only [bind, Except.bind, pure, Except.pure] at h
  cases hf : roundFn rq s.2 with
  | error e => simp [hf] at h
  | ok g =>
    simp only [hf, Except.ok.injEq] at h
    subst h
    exact ⟨rfl, rfl⟩

theorem round_iff (rx : ℤ → ℤ) (rq : ℚ → ℚ) (p : PF) (inc : Bool) :
    (∃ r, round rx rq p inc = .ok r) ↔ ∀ s ∈ p, (∃ v, s.2 = .const v) ∨ ∃ m c, s.2 = .lin m c := by
  constructor
  · rintro ⟨r, h⟩ s hs
    obtain ⟨t, -, -, h2⟩ := paired_left (round_list h) hs
    cases hf : s.2 <;> simp [hf, roundFn] at h2 ⊢
  · intro h
    induction p with
    | nil => exact ⟨[], rfl⟩
    | cons s p ih =>
      obtain ⟨r, hr⟩ := ih (fun s hs => h s (by simp [hs]))
      have hg : ∃ g, roundFn rq s.2 = .ok g := by
        rcases h s (by simp) with ⟨v, e⟩ | ⟨m, c, e⟩ <;> rw [e]
        · exact ⟨_, rfl⟩
        · exact ⟨_, rfl⟩
      obtain ⟨g, hg⟩ := hg
      unfold round at hr
      refine ⟨_, by unfold round; rw [List.mapM_cons]; simp only [hg, bind, Except.bind, pure, Except.pure] at hr ⊢; rw [hr]⟩

end PF

end Verif.Fun
