import Verif.Functions.Lemmas2
import Verif.ListAux

/-!
# Lemmas about piecewise operations that keep the pieces apart
-/

namespace Verif.Fun

open Iv Iv.FP

namespace PF

theorem forall₂_value {val val' : ℤ → ℚ} {p r : PF} {n k : ℤ} {v w : Option ℚ}
    (h : List.Forall₂ (fun s t => (t.1.Mem (fin n) → s.1.Mem (fin k)) ∧
      (t.2.eval (val n) = v → s.2.eval (val' k) = w)) p r)
    (hv : Value val r n v) : Value val' p k w := by
  induction h with
  | nil => obtain ⟨s, hs, -⟩ := hv; simp at hs
  | cons hst _ ih =>
    obtain ⟨s, hs, hm, he⟩ := hv
    rcases List.mem_cons.1 hs with rfl | hs
    · exact ⟨_, by simp, hst.1 hm, hst.2 he⟩
    · obtain ⟨t, ht, h1, h2⟩ := ih ⟨s, hs, hm, he⟩
      exact ⟨t, by simp [ht], h1, h2⟩

theorem forall₂_disj {p r : PF}
    (h : List.Forall₂ (fun s t => ∀ n : ℤ, t.1.Mem (fin n) → s.1.Mem (fin n)) p r)
    (hr : ∀ t ∈ r, ∀ x, t.1.Mem x → ∃ n, x = fin n) (hd : p.Disj) : r.Disj := by
  induction h with
  | nil => exact List.Pairwise.nil
  | @cons s t p r hst h ih =>
    obtain ⟨h1, h2⟩ := List.pairwise_cons.1 hd
    refine List.pairwise_cons.2 ⟨fun u hu x hx => ?_, ih (fun t ht => hr t (by simp [ht])) h2⟩
    obtain ⟨n, rfl⟩ := hr t (by simp) x hx.1
    have : ∃ w ∈ p, w.1.Mem (fin n) := by
      clear ih h1 h2 hd hr
      induction h with
      | nil => simp at hu
      | cons hab _ ih =>
        rcases List.mem_cons.1 hu with rfl | hu
        · exact ⟨_, by simp, hab n hx.2⟩
        · obtain ⟨w, hw, hm⟩ := ih hu
          exact ⟨w, by simp [hw], hm⟩
    obtain ⟨w, hw, hm⟩ := this
    exact h1 w hw (fin n) ⟨hst n hx.1, hm⟩

/-- Applying an operation to every function and keeping the intervals. -/
theorem mapM_fn {F : Fn → Except Err Fn} {p r : PF}
    (h : p.mapM (fun s => (F s.2).map (fun g => (s.1, g))) = .ok r) :
    List.Forall₂ (fun s t => t.1 = s.1 ∧ F s.2 = .ok t.2) p r := by
  rw [mapM_ok_iff] at h
  refine h.imp (fun {s t} hst => ?_)
  cases hF : F s.2 with
  | error e => simp [hF, Except.map] at hst
  | ok g => simp only [hF, Except.map, Except.ok.injEq] at hst; subst hst; exact ⟨rfl, rfl⟩

theorem forall₂_fst {R : CS × Fn → CS × Fn → Prop} {p r : PF} (h : List.Forall₂ R p r)
    (hR : ∀ s t, R s t → t.1 = s.1) : r.map (·.1) = p.map (·.1) := by
  induction h with
  | nil => rfl
  | cons hst _ ih => simp [hR _ _ hst, ih]

theorem disj_map_fst {p : PF} : p.Disj ↔ (p.map (·.1)).Pairwise CS.Disjoint := by
  rw [List.pairwise_map]; rfl

theorem mapM_fn_value {val : ℤ → ℚ} {F : Fn → Except Err Fn} {p r : PF}
    (h : p.mapM (fun s => (F s.2).map (fun g => (s.1, g))) = .ok r) {n : ℤ} {v : Option ℚ} :
    Value val r n v ↔ ∃ s ∈ p, s.1.Mem (fin n) ∧ ∃ g, F s.2 = .ok g ∧ g.eval (val n) = v := by
  have h2 := mapM_fn h
  clear h
  induction h2 with
  | nil => simp [Value]
  | @cons s t p r hst h ih =>
    simp only [Value, List.mem_cons, exists_eq_or_imp] at ih ⊢
    rw [hst.1]
    refine (or_congr Iff.rfl ih).trans ?_
    constructor
    · rintro (⟨hm, he⟩ | h)
      · exact .inl ⟨hm, t.2, hst.2, he⟩
      · exact .inr h
    · rintro (⟨hm, g, hg, he⟩ | h)
      · rw [hst.2] at hg; cases hg; exact .inl ⟨hm, he⟩
      · exact .inr h

theorem mapM_fn_disj {F : Fn → Except Err Fn} {p r : PF}
    (h : p.mapM (fun s => (F s.2).map (fun g => (s.1, g))) = .ok r) (hd : p.Disj) : r.Disj := by
  rw [disj_map_fst] at hd ⊢
  rwa [forall₂_fst (mapM_fn h) (fun s t h => h.1)]

theorem mapM_fn_all {F : Fn → Except Err Fn} {p r : PF} {P : CS → Prop}
    (h : p.mapM (fun s => (F s.2).map (fun g => (s.1, g))) = .ok r) (hp : ∀ s ∈ p, P s.1) :
    ∀ s ∈ r, P s.1 := by
  have e := forall₂_fst (mapM_fn h) (fun s t h => h.1)
  intro s hs
  have : s.1 ∈ r.map (·.1) := List.mem_map_of_mem hs
  rw [e, List.mem_map] at this
  obtain ⟨t, ht, e⟩ := this
  rw [← e]; exact hp t ht

theorem addFn_eq {p : PF} {f : Fn} {r : PF} (h : addFn p f = .ok r) :
    p.mapM (fun s => (s.2.plus f).map (fun g => (s.1, g))) = .ok r := by
  cases f <;> simp [addFn] at h ⊢ <;> exact h

theorem mulFn_eq {p : PF} {f : Fn} {r : PF} (h : mulFn p f = .ok r) :
    p.mapM (fun s => (s.2.times f).map (fun g => (s.1, g))) = .ok r := by
  cases f <;> simp [mulFn] at h ⊢ <;> exact h

theorem convertEnds_mem_fin (c : CS) (l r : Option Br) (n : ℤ) :
    (c.convertEnds l r).Mem (fin n) ↔ c.Mem (fin n) := by
  obtain ⟨lo, u, a, b⟩ := c
  cases lo <;> cases u <;> rcases l with _ | _ | _ <;> rcases r with _ | _ | _ <;> cases a <;> cases b <;>
    simp [CS.convertEnds, CS.Mem, up, dn, FP.lt_def, leb] <;> omega

theorem intersectionEnds_mem {a b : CS} (ha : a.WF) (hb : b.WF) (l r : Option Br) :
    ∃ c, a.intersectionEnds b l r = .ok c ∧ ∀ n : ℤ, c.Mem (fin n) ↔ a.Mem (fin n) ∧ b.Mem (fin n) := by
  obtain ⟨c, hc, hw, hm⟩ := CS.intersection_ok a b ha hb
  cases hi : a.intersects b with
  | false =>
    refine ⟨.emptyset, by simp [CS.intersectionEnds, hi], fun n => ?_⟩
    rw [← hm]
    simp only [CS.intersection, hi] at hc
    cases hc; rfl
  | true =>
    refine ⟨c.convertEnds l r, by simp [CS.intersectionEnds, hi, hc, bind, Except.bind], fun n => ?_⟩
    rw [convertEnds_mem_fin, hm]

theorem crop_value {val : ℤ → ℚ} {p : PF} (hp : ∀ s ∈ p, s.1.WF) {I : CS} (hI : I.WF) :
    ∃ r, crop p I = .ok r ∧ ∀ n v, Value val r n v ↔ Value val p n v ∧ I.Mem (fin n) := by
  induction p with
  | nil => exact ⟨[], rfl, by simp [Value]⟩
  | cons s p ih =>
    obtain ⟨r, hr, hv⟩ := ih (fun t ht => hp t (by simp [ht]))
    have hs := hp s (by simp)
    cases hi : s.1.intersects I with
    | false =>
      refine ⟨r, by simpa [crop, hi] using hr, fun n v => ?_⟩
      rw [hv]
      simp only [Value, List.mem_cons, exists_eq_or_imp]
      constructor
      · rintro ⟨h1, h2⟩; exact ⟨.inr h1, h2⟩
      · rintro ⟨⟨h1, -⟩ | h1, h2⟩
        · rw [CS.intersects_of_mem h1 h2] at hi; simp at hi
        · exact ⟨h1, h2⟩
    | true =>
      obtain ⟨c, hc, hm⟩ := intersectionEnds_mem hs hI (some .inc) (some .exc)
      refine ⟨(c, s.2) :: r, ?_, fun n v => ?_⟩
      · have h1 : crop (s :: p) I = (do
            let b ← (s.1.intersectionEnds I (some .inc) (some .exc)).map (fun i => (i, s.2))
            let bs ← crop p I
            pure (b :: bs)) := by
          simp only [crop, List.filter_cons, hi, if_true, List.mapM_cons]
        rw [h1, hc, hr]; rfl
      · have := hv n v
        simp only [Value, List.mem_cons, exists_eq_or_imp] at this ⊢
        rw [this, hm]
        grind

theorem crop_disj {p : PF} (hp : ∀ s ∈ p, s.1.WF) {I : CS} (hI : I.WF) (hd : p.Disj) {r : PF}
    (h : crop p I = .ok r) {n : ℤ} {s t : CS × Fn} (hs : s ∈ r) (ht : t ∈ r) (h1 : s.1.Mem (fin n))
    (h2 : t.1.Mem (fin n)) : s.2 = t.2 := by
  unfold crop at h
  rw [mapM_ok_iff] at h
  have key : ∀ s ∈ r, s.1.Mem (fin n) → ∃ u ∈ p, u.1.Mem (fin n) ∧ u.2 = s.2 := by
    clear hs ht
    intro s hs hm
    have hp' : ∀ u ∈ p.filter (fun s => s.1.intersects I), u ∈ p := fun u hu => (List.mem_filter.1 hu).1
    generalize p.filter (fun s => s.1.intersects I) = q at h hp'
    induction h with
    | nil => simp at hs
    | @cons a b q r hab _ ih =>
      rcases List.mem_cons.1 hs with rfl | hs
      · obtain ⟨c, hc, hmc⟩ := intersectionEnds_mem (hp a (hp' a (by simp))) hI (some .inc) (some .exc)
        simp only [hc, Except.map, Except.ok.injEq] at hab
        subst hab
        exact ⟨a, hp' a (by simp), ((hmc n).1 hm).1, rfl⟩
      · exact ih hs (fun u hu => hp' u (by simp [hu]))
  obtain ⟨u, hu, hum, e1⟩ := key s hs h1
  obtain ⟨w, hw, hwm, e2⟩ := key t ht h2
  rw [← e1, ← e2, disj_unique hd hu hw hum hwm]

/-- Evaluation of a function whose pieces agree where they overlap. -/
theorem eval_ok_iff' {val : ℤ → ℚ} {p : PF} {n : ℤ}
    (hu : ∀ s ∈ p, ∀ t ∈ p, s.1.Mem (fin n) → t.1.Mem (fin n) → s.2 = t.2) {v : Option ℚ} :
    p.eval val n = .ok v ↔ p.Value val n v := by
  unfold eval
  constructor
  · intro h
    cases ha : atPos p (fin n) with
    | none => simp [ha] at h
    | some f =>
      simp only [ha, Except.ok.injEq] at h
      obtain ⟨s, hs, hm, rfl⟩ := atPos_fin_some ha
      exact ⟨s, hs, hm, h⟩
  · rintro ⟨s, hs, hm, rfl⟩
    cases ha : atPos p (fin n) with
    | none => exact absurd ⟨s, hs, hm⟩ (atPos_fin_none.1 ha)
    | some f =>
      obtain ⟨t, ht, hmt, rfl⟩ := atPos_fin_some ha
      rw [hu s hs t ht hm hmt]

end PF
end Verif.Fun
