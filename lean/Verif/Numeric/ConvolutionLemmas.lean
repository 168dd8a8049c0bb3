import Verif.Numeric.Convolution
import Verif.Numeric.CompareLemmas
import Verif.Functions.Props2
import Verif.ListAux

/-!
# Step functions under mirroring, shifting and multiplication
-/

namespace Verif.Fun.PF

open Iv Iv.FP Iv.CS

/-- `p` is the step function with the value `F n` at the float `n`. -/
structure IsStep (p : PF) (F : ℤ → ℚ) : Prop where
  ho : ∀ s ∈ p, s.1.HalfOpen
  disj : p.Disj
  fns : ∀ s ∈ p, ∃ c, s.2 = .const c
  val : ∀ n, ∃ s ∈ p, s.1.Mem (fin n) ∧ s.2 = .const (F n)

theorem IsStep.ne {p : PF} {F : ℤ → ℚ} (h : IsStep p F) : p ≠ [] := by
  obtain ⟨s, hs, -⟩ := h.val 0
  exact List.ne_nil_of_mem hs

theorem IsStep.eq {p : PF} {F : ℤ → ℚ} (h : IsStep p F) {s : CS × Fn} (hs : s ∈ p) {n : ℤ} (hn : s.1.Mem (fin n)) :
    s.2 = .const (F n) := by
  obtain ⟨t, ht, h1, h2⟩ := h.val n
  rw [← h2]
  by_contra hne
  have hst : s ≠ t := fun e => hne (by rw [e])
  have hd := h.disj
  have : s.1.Disjoint t.1 ∨ t.1.Disjoint s.1 := by
    obtain ⟨i, hi, rfl⟩ := List.getElem_of_mem hs
    obtain ⟨j, hj, rfl⟩ := List.getElem_of_mem ht
    rcases Nat.lt_trichotomy i j with h | h | h
    · exact .inl (List.pairwise_iff_getElem.1 hd i j hi hj h)
    · subst h; exact absurd rfl hst
    · exact .inr (List.pairwise_iff_getElem.1 hd j i hj hi h)
  rcases this with h | h
  · exact h _ ⟨hn, h1⟩
  · exact h _ ⟨h1, hn⟩

theorem IsStep.value {p : PF} {F : ℤ → ℚ} (h : IsStep p F) (val : ℤ → ℚ) (n : ℤ) :
    p.eval val n = .ok (some (F n)) := by
  rw [eval_ok_iff h.disj]
  obtain ⟨s, h1, h2, h3⟩ := h.val n
  exact ⟨s, h1, h2, by rw [h3]; rfl⟩

theorem IsStep.of_value {p : PF} {F : ℤ → ℚ} (ho : ∀ s ∈ p, s.1.HalfOpen) (hd : p.Disj)
    (hf : ∀ s ∈ p, ∃ c, s.2 = .const c) (hv : ∀ n, p.eval (fun _ => 0) n = .ok (some (F n))) : IsStep p F := by
  refine ⟨ho, hd, hf, fun n => ?_⟩
  have h := hv n
  rw [eval_ok_iff hd] at h
  obtain ⟨s, h1, h2, h3⟩ := h
  obtain ⟨c, hc⟩ := hf s h1
  rw [hc] at h3
  simp only [Fn.eval, Option.some.injEq] at h3
  exact ⟨s, h1, h2, by rw [hc, h3]⟩

/-- The product of two step functions. -/
theorem IsStep.times {p q : PF} {F G : ℤ → ℚ} (hp : IsStep p F) (hq : IsStep q G) :
    ∃ r, p.times q = .ok r ∧ IsStep r (fun n => F n * G n) := by
  have hund : ∀ l, (fun l => if RS.isempty l then [] else l) l = l ∨
      ((fun l => if RS.isempty l then [] else l) l = [] ∧ ∀ c ∈ l, c.isempty = true) := fun l => by
    by_cases hl : RS.isempty l = true
    · exact .inr ⟨by simp [hl], by simpa [RS.isempty] using hl⟩
    · exact .inl (by simp [hl])
  obtain ⟨r, h1, r', h2, h3⟩ := pointwise_fns (op := Fn.times) (pv := pivot) (P := fun f => ∃ c, f = .const c)
    (fun f ⟨c, hc⟩ => by rw [hc]; simp) hund hp.ho hq.ho hp.disj hq.disj hp.ne
    (fun n => ⟨fun _ => by
      obtain ⟨s, h1, h2, -⟩ := hq.val n
      exact ⟨s, h1, h2⟩, fun _ => by
      obtain ⟨s, h1, h2, -⟩ := hp.val n
      exact ⟨s, h1, h2⟩⟩) (fun s _ t _ d hd _ _ => PF.pivot_selects hd) (fun s hs t ht => by
      obtain ⟨c, hc⟩ := hp.fns s hs
      obtain ⟨d, hd⟩ := hq.fns t ht
      exact ⟨.const (c * d), by rw [hc, hd]; simp [Fn.times, Fn.mul, Except.map, Fn.simplify], _, rfl⟩)
  have e : p.times q = .ok r' := by simp only [PF.times, PF.mul, bind, Except.bind, h1, h2]
  refine ⟨r', e, IsStep.of_value (fun s hs => (h3 s hs).1) ?_ (fun s hs => (h3 s hs).2) (fun n => ?_)⟩
  · obtain ⟨-, g2, g3⟩ := pointwise_eval (val := fun _ => 0) hund hp.ho hq.ho hp.disj hq.disj hp.ne hq.ne
      (fun s _ t _ d hd _ _ => PF.pivot_selects hd) (fun f g h e x => Fn.times_eval e x) h1 0
    exact sorted_disj (simplify_spec (val := fun _ => 0) g3 h2).2.2
  · rw [C14_times_piecewise hp.ho hq.ho hp.disj hq.disj hp.ne hq.ne e, hp.value, hq.value]
    rfl

theorem mapM_map {α β : Type} {f : α → Except Err β} {g : α → β} :
    ∀ {l : List α}, (∀ a ∈ l, f a = .ok (g a)) → l.mapM f = .ok (l.map g)
  | [], _ => rfl
  | a :: l, h => by
    rw [List.mapM_cons, h a (by simp), mapM_map (l := l) (fun b hb => h b (by simp [hb]))]
    rfl

/-- A transformed step function: every piece is replaced by one that contains the floats `n` with `t n` in the
piece. -/
theorem IsStep.map {p : PF} {F : ℤ → ℚ} (h : IsStep p F) {φ : CS → CS} {t : ℤ → ℤ}
    (h1 : ∀ s ∈ p, (φ s.1).HalfOpen) (h2 : ∀ s ∈ p, ∀ n, (φ s.1).Mem (fin n) ↔ s.1.Mem (fin (t n))) :
    IsStep (p.map (fun s => (φ s.1, s.2))) (fun n => F (t n)) := by
  refine ⟨?_, ?_, ?_, fun n => ?_⟩
  · simp only [List.mem_map]
    rintro _ ⟨s, hs, rfl⟩
    exact h1 s hs
  · unfold Disj
    rw [List.pairwise_map]
    refine (List.Pairwise.and_mem.1 h.disj).imp (fun {s u} ⟨hs, hu, hd⟩ => ?_)
    rintro x ⟨hx, hy⟩
    obtain ⟨n, rfl⟩ := norm_mem_fin (h1 s hs) hx
    exact hd _ ⟨(h2 s hs n).1 hx, (h2 u hu n).1 hy⟩
  · simp only [List.mem_map]
    rintro _ ⟨s, hs, rfl⟩
    exact h.fns s hs
  · obtain ⟨s, hs, hm, hc⟩ := h.val (t n)
    exact ⟨_, List.mem_map.2 ⟨s, hs, rfl⟩, (h2 s hs n).2 hm, hc⟩

theorem IsStep.reverse {p : PF} {F : ℤ → ℚ} (h : IsStep p F) : IsStep p.reverse F := by
  refine ⟨fun s hs => h.ho s (by simpa using hs), ?_, fun s hs => h.fns s (by simpa using hs), fun n => ?_⟩
  · unfold Disj
    rw [List.pairwise_reverse]
    exact List.Pairwise.imp (fun hd x hx => hd x ⟨hx.2, hx.1⟩) h.disj
  · obtain ⟨s, hs, h1, h2⟩ := h.val n
    exact ⟨s, by simpa using hs, h1, h2⟩

/-- Shifting by `d` floats. -/
theorem IsStep.xshift {p : PF} {F : ℤ → ℚ} (h : IsStep p F) {sub : ℤ → ℤ} {d : ℤ} (hd : ∀ n, sub n = n - d) (q : ℚ) :
    ∃ r, p.xshift sub q = .ok r ∧ IsStep r (fun n => F (n + d)) := by
  refine ⟨p.map (fun s => (({ s.1 with lower := mv sub s.1.lower, upper := mv sub s.1.upper } : CS), s.2)), ?_, ?_⟩
  · unfold PF.xshift
    refine mapM_map (fun s hs => ?_)
    obtain ⟨c, hc⟩ := h.fns s hs
    obtain ⟨⟨l, u, a, b⟩, f⟩ := s
    simp only at hc
    subst hc
    cases l <;> cases u <;> rfl
  · refine IsStep.map (φ := fun i => ({ i with lower := mv sub i.lower, upper := mv sub i.upper } : CS)) h
      (fun s hs => ?_) (fun s hs n => ?_)
    · have := h.ho s hs
      obtain ⟨⟨l, u, a, b⟩, f⟩ := s
      obtain ⟨h1, h2, h3⟩ := this
      refine ⟨?_, h2, ?_⟩
      · revert h1
        cases l <;> cases u <;> simp [mv, FP.lt_def, leb, hd]
      · revert h3
        cases l <;> simp [mv]
    · obtain ⟨⟨l, u, a, b⟩, f⟩ := s
      cases l <;> cases u <;> cases a <;> cases b <;> simp [mv, CS.Mem, FP.lt_def, leb, hd] <;> omega

/-- The piece after `xmirror`. -/
def mir (i : CS) : CS :=
  let nx : FP → FP := fun b => match b with | ninf => pinf | fin k => fin (-k + 1) | pinf => ninf
  ⟨nx i.upper, nx i.lower, if i.upper = pinf then .exc else .inc, .exc⟩

theorem mir_ends {i : CS} (h : i.HalfOpen) :
    i.xmirror.ends (some (if i.xmirror.lower.isInf then .exc else .inc)) (some .exc) = .ok (mir i) := by
  obtain ⟨l, u, a, b⟩ := i
  obtain ⟨h1, h2, h3⟩ := h
  simp only at h1 h2 h3
  subst h2
  cases l <;> cases u <;> cases a <;>
    simp_all [mir, CS.xmirror, CS.ends, CS.mk?, FP.neg, isInf, FP.lt_def, leb, bind, Except.bind, FP.up] <;>
    (try (rw [if_neg (by omega)]; simp))

theorem mir_halfOpen {i : CS} (h : i.HalfOpen) : (mir i).HalfOpen := by
  obtain ⟨l, u, a, b⟩ := i
  obtain ⟨h1, h2, h3⟩ := h
  simp only at h1 h2 h3
  subst h2
  cases l <;> cases u <;> cases a <;> simp_all [mir, CS.HalfOpen, FP.lt_def, leb] <;> omega

theorem mir_mem {i : CS} (h : i.HalfOpen) (n : ℤ) : (mir i).Mem (fin n) ↔ i.Mem (fin (-n)) := by
  rw [(mir_halfOpen h).mem_iff, h.mem_iff]
  obtain ⟨l, u, a, b⟩ := i
  cases l <;> cases u <;> simp [mir, FP.lt_def, FP.le_def, leb] <;> omega

/-- Mirroring is exact at the floats. -/
theorem IsStep.mirror {p : PF} {F : ℤ → ℚ} (h : IsStep p F) :
    ∃ r, p.mirror = .ok r ∧ IsStep r (fun n => F (-n)) := by
  refine ⟨p.reverse.map (fun s => (mir s.1, s.2)), ?_,
    h.reverse.map (fun s hs => mir_halfOpen (h.ho s (by simpa using hs)))
      (fun s hs n => mir_mem (h.ho s (by simpa using hs)) n)⟩
  have e1 : (p.map (·.1.xmirror)).reverse.mapM (fun i => i.ends (some (if i.lower.isInf then .exc else .inc)) (some .exc))
      = .ok (p.reverse.map (fun s => mir s.1)) := by
    rw [← List.map_reverse, mapM_ok_iff]
    rw [List.forall₂_map_left_iff, List.forall₂_map_right_iff, List.forall₂_same]
    exact fun s hs => mir_ends (h.ho s (by simpa using hs))
  have e2 : p.mapM (·.2.xmirror) = .ok (p.map (·.2)) := mapM_map (fun s hs => by
    obtain ⟨c, hc⟩ := h.fns s hs
    rw [hc]; rfl)
  simp only [PF.mirror, bind, Except.bind, e1, e2, Except.ok.injEq]
  rw [← List.map_reverse, List.zip_map']

end Verif.Fun.PF
