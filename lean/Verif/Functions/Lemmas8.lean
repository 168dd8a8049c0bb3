import Verif.Functions.Lemmas7
import Verif.Intervals.Props2

/-!
# When sums and products of piecewise functions exist
-/

namespace Verif.Fun

open Iv Iv.FP Iv.CS

namespace PF

/-- A function that is equal, at every float, to a connected one has a connected domain. -/
theorem domain_shape {p q : PF} (hp : ∀ s ∈ p, s.1.HalfOpen) (hq : ∀ s ∈ q, s.1.HalfOpen)
    (hc : ∀ n, p.Covers n ↔ q.Covers n) {a : CS} {l : List CS} (ha : domain p = .ok (.cs a))
    (hl : domain q = .ok (.rs l)) : False := by
  obtain ⟨A, hA, a1, a2⟩ := domain_spec hp
  rw [ha] at hA; cases hA
  obtain ⟨B, hB, b1, r, b2, b3, b4, b5⟩ := C10_half_open (l := q.map (·.1)) (by
    intro s hs
    obtain ⟨t, ht, rfl⟩ := List.mem_map.1 hs
    exact hq t ht)
  have hB' : domain q = .ok B := hB
  rw [hl] at hB'; cases hB'
  rcases b2 with ⟨h, -⟩ | ⟨c, h, -⟩ | ⟨h, h2⟩
  · cases h
  · cases h
  · cases h
    have hmem : ∀ n : ℤ, a.Mem (fin n) ↔ RS.Mem l (fin n) := by
      intro n
      have h1 := a1 n
      have h2 := b1 (fin n)
      simp only [NS.Mem] at h1 h2
      rw [h1, hc, h2]
      simp [RS.Mem, Covers]
    obtain ⟨c, d, e, rfl⟩ : ∃ c d e, l = c :: d :: e := by
      match l, h2 with
      | c :: d :: e, _ => exact ⟨c, d, e, rfl⟩
    clear h2
    have hc := b3 c (by simp)
    have hd := b3 d (by simp)
    have hlt := (List.isChain_cons_cons.1 b5).1
    obtain ⟨n1, h1⟩ := ho_mem hc
    obtain ⟨n2, h2⟩ := ho_mem hd
    have hA : a.HalfOpen := by
      have := a2.2.2 ⟨n1, (hmem n1).2 ⟨c, by simp, h1⟩⟩
      exact this
    have h1a := (hA.mem_iff n1).1 ((hmem n1).2 ⟨c, by simp, h1⟩)
    have h2a := (hA.mem_iff n2).1 ((hmem n2).2 ⟨d, by simp, h2⟩)
    have h1' := (hc.mem_iff n1).1 h1
    have h2' := (hd.mem_iff n2).1 h2
    cases hu : c.upper with
    | ninf => rw [hu] at h1'; exact absurd h1'.2 (not_lt.2 (ninf_le _))
    | pinf => rw [hu] at hlt; exact absurd hlt (not_lt.2 (le_pinf _))
    | fin b =>
      rw [hu] at hlt h1'
      have hb2 : fin b < fin n2 := lt_of_lt_of_le hlt h2'.1
      have hba : a.Mem (fin b) := by
        rw [hA.mem_iff]
        exact ⟨le_trans h1a.1 (le_of_lt h1'.2), lt_trans hb2 h2a.2⟩
      obtain ⟨x, hx, hxb⟩ := (hmem b).1 hba
      rcases List.mem_cons.1 hx with rfl | hx
      · rw [hc.mem_iff, hu] at hxb; exact absurd hxb.2 (lt_irrefl _)
      rcases List.mem_cons.1 hx with rfl | hx
      · rw [hd.mem_iff] at hxb; exact absurd hxb.1 (not_le.2 hlt)
      · have := (List.pairwise_cons.1 (List.pairwise_cons.1 b4).2).1 x hx _ _ h2 hxb
        exact absurd this (not_lt.2 (le_of_lt hb2))

theorem simplifyLoop_fns {P : Fn → Prop} : ∀ {p : PF} {last : CS × Fn} {r : PF},
    (∀ s ∈ last :: p, P s.2) → simplifyLoop last p = .ok r → ∀ s ∈ r, P s.2
  | [], last, r, h, e => by
    simp only [simplifyLoop] at e
    cases e
    exact h
  | (i, f) :: p, last, r, h, e => by
    have aux : ∀ {x : Except Err PF}, x.map (last :: ·) = .ok r → ∃ r', x = .ok r' ∧ r = last :: r' := by
      intro x hx
      cases x with
      | error e => cases hx
      | ok y => cases hx; exact ⟨y, rfl, rfl⟩
    have hlast := h last (by simp)
    have hcons : ∀ {x : PF}, (∀ s ∈ x, P s.2) → ∀ s ∈ last :: x, P s.2 := by
      intro x hx s hs
      rcases List.mem_cons.1 hs with rfl | hs
      · exact hlast
      · exact hx s hs
    have hp : ∀ s ∈ (i, f) :: p, P s.2 := fun s hs => h s (by simp [List.mem_cons.1 hs])
    simp only [simplifyLoop] at e
    by_cases h1 : i.isempty = true
    · rw [if_pos h1] at e
      exact simplifyLoop_fns (fun s hs => by
        rcases List.mem_cons.1 hs with rfl | hs
        · exact hlast
        · exact h s (by simp [hs])) e
    · rw [if_neg h1] at e
      by_cases h2 : i.contiguous last.1 = true
      · rw [if_pos h2] at e
        cases h3 : f.eq last.2 with
        | error er => simp [h3] at e
        | ok b =>
          cases b with
          | true =>
            simp only [h3] at e
            exact simplifyLoop_fns (fun s hs => by
              rcases List.mem_cons.1 hs with rfl | hs
              · exact hlast
              · exact h s (by simp [hs])) e
          | false =>
            simp only [h3] at e
            obtain ⟨r', hr', rfl⟩ := aux e
            exact hcons (simplifyLoop_fns hp hr')
      · rw [if_neg h2] at e
        obtain ⟨r', hr', rfl⟩ := aux e
        exact hcons (simplifyLoop_fns hp hr')

theorem simplifyStart_fns {P : Fn → Prop} : ∀ {p r : PF}, (∀ s ∈ p, P s.2) → simplifyStart p = .ok r →
    ∀ s ∈ r, P s.2
  | [], r, _, e => by cases e; simp
  | (i, f) :: p, r, h, e => by
    simp only [simplifyStart] at e
    split at e
    · exact simplifyStart_fns (fun s hs => h s (by simp [hs])) e
    · exact simplifyLoop_fns h e

theorem simplify_fns {P : Fn → Prop} {p r : PF} (h : ∀ s ∈ p, P s.2) (e : simplify p = .ok r) :
    ∀ s ∈ r, P s.2 := by
  simp only [simplify, bind, Except.bind] at e
  cases hs : sortSegs p with
  | error er => simp [hs] at e
  | ok q =>
    simp only [hs] at e
    exact simplifyStart_fns (fun t ht => h t ((sortSegs_perm hs).mem_iff.1 ht)) e

theorem eq_ok_of_ne_undef {f g : Fn} (h : f ≠ .undef) : ∃ b, f.eq g = .ok b := by
  cases f <;> cases g <;> simp_all [Fn.eq]

/-- Half-open pieces stay half-open. -/
theorem simplifyLoop_halfOpen : ∀ {p : PF} {last : CS × Fn} {r : PF}, (∀ s ∈ last :: p, s.1.HalfOpen) →
    (last :: p).Pairwise (fun s t => RS.Before s.1 t.1) → simplifyLoop last p = .ok r → ∀ s ∈ r, s.1.HalfOpen
  | [], last, r, h, _, e => by
    simp only [simplifyLoop] at e
    cases e
    exact h
  | (i, f) :: p, last, r, h, hb, e => by
    have aux : ∀ {x : Except Err PF}, x.map (last :: ·) = .ok r → ∃ r', x = .ok r' ∧ r = last :: r' := by
      intro x hx
      cases x with
      | error e => cases hx
      | ok y => cases hx; exact ⟨y, rfl, rfl⟩
    have hlast := h last (by simp)
    have hi : i.HalfOpen := h (i, f) (by simp)
    obtain ⟨hb1, hb2⟩ := List.pairwise_cons.1 hb
    have hcons : ∀ {x : PF}, (∀ s ∈ x, s.1.HalfOpen) → ∀ s ∈ last :: x, s.1.HalfOpen := by
      intro x hx s hs
      rcases List.mem_cons.1 hs with rfl | hs
      · exact hlast
      · exact hx s hs
    have hp : ∀ s ∈ (i, f) :: p, s.1.HalfOpen := fun s hs => h s (by simp [List.mem_cons.1 hs])
    simp only [simplifyLoop] at e
    rw [if_neg (by rw [hi.nonempty]; simp)] at e
    by_cases h2 : i.contiguous last.1 = true
    · rw [if_pos h2] at e
      cases h3 : f.eq last.2 with
      | error er => simp [h3] at e
      | ok b =>
        cases b with
        | true =>
          simp only [h3] at e
          obtain ⟨n, hn⟩ := ho_mem hlast
          obtain ⟨m, hm⟩ := ho_mem hi
          have hnm := hb1 (i, f) (by simp) _ _ hn hm
          rw [hlast.mem_iff] at hn
          rw [hi.mem_iff] at hm
          refine simplifyLoop_halfOpen (fun s hs => ?_) ?_ e
          · rcases List.mem_cons.1 hs with rfl | hs
            · exact ⟨lt_of_le_of_lt hn.1 (lt_trans hnm hm.2), hi.2.1, hlast.2.2⟩
            · exact h s (by simp [hs])
          · refine List.pairwise_cons.2 ⟨fun t ht x y hx hy => ?_, (List.pairwise_cons.1 hb2).2⟩
            have h4 : CS.HalfOpen ({ last.1 with upper := i.upper, right := i.right } : CS) :=
              ⟨lt_of_le_of_lt hn.1 (lt_trans hnm hm.2), hi.2.1, hlast.2.2⟩
            obtain ⟨k, rfl⟩ := norm_mem_fin h4 hx
            rw [h4.mem_iff] at hx
            have h5 := (List.pairwise_cons.1 hb2).1 t ht
            by_cases h6 : i.lower ≤ fin k
            · exact h5 _ _ ((hi.mem_iff k).2 ⟨h6, hx.2⟩) hy
            · exact lt_of_lt_of_le (not_le.1 h6) (le_trans hm.1 (le_of_lt (h5 _ _ ((hi.mem_iff m).2 hm) hy)))
        | false =>
          simp only [h3] at e
          obtain ⟨r', hr', rfl⟩ := aux e
          exact hcons (simplifyLoop_halfOpen hp hb2 hr')
    · rw [if_neg h2] at e
      obtain ⟨r', hr', rfl⟩ := aux e
      exact hcons (simplifyLoop_halfOpen hp hb2 hr')

theorem simplify_halfOpen {p r : PF} (h : ∀ s ∈ p, s.1.HalfOpen) (e : simplify p = .ok r) :
    ∀ s ∈ r, s.1.HalfOpen := by
  simp only [simplify, bind, Except.bind] at e
  cases hs : sortSegs p with
  | error er => simp [hs] at e
  | ok q =>
    simp only [hs] at e
    have hsorted := (sortSegs_sorted (fun t ht => norm_ne (h t ht)) hs).imp Lt.before
    cases q with
    | nil => simp only [simplifyStart] at e; cases e; simp
    | cons a q =>
      have h1 : ∀ s ∈ a :: q, s.1.HalfOpen := fun t ht => h t ((sortSegs_perm hs).mem_iff.1 ht)
      simp only [simplifyStart] at e
      rw [if_neg (by rw [(h1 a (by simp)).nonempty]; simp)] at e
      exact simplifyLoop_halfOpen h1 hsorted e

/-- `add` and `mul` return for two functions with the same domain, if the operation does not raise; the functions of the
result are results of the operation. -/
theorem pointwise_fns {op : Fn → Fn → Except Err Fn} {pv : CS → FP} {und : List CS → List CS} {p q : PF}
    {P : Fn → Prop} (hP : ∀ f, P f → f ≠ .undef)
    (hund : ∀ l, und l = l ∨ (und l = [] ∧ ∀ c ∈ l, c.isempty = true))
    (hp : ∀ s ∈ p, s.1.HalfOpen) (hq : ∀ s ∈ q, s.1.HalfOpen) (dp : p.Disj) (dq : q.Disj)
    (np : p ≠ []) (hcov : ∀ n, p.Covers n ↔ q.Covers n)
    (hpv : ∀ s ∈ p, ∀ t ∈ q, ∀ d : CS, d.HalfOpen → d.lower = max s.1.lower t.1.lower →
      d.upper = min s.1.upper t.1.upper → Selects d (pv d))
    (hop : ∀ s ∈ p, ∀ t ∈ q, ∃ f, op s.2 t.2 = .ok f ∧ P f) :
    ∃ r, pointwise op pv und p q = .ok r ∧ ∃ r', simplify r = .ok r' ∧ ∀ s ∈ r', s.1.HalfOpen ∧ P s.2 := by
  have nq : q ≠ [] := by
    rintro rfl
    obtain ⟨s, hs⟩ := List.exists_mem_of_ne_nil p np
    obtain ⟨n, hn⟩ := ho_mem (hp s hs)
    obtain ⟨t, ht, -⟩ := (hcov n).1 ⟨s, hs, hn⟩
    simp at ht
  obtain ⟨dom, hdom, d1, d2, d3, d4⟩ := intersections_spec (l := p.map (·.1)) (o := q.map (·.1))
    (by simpa using fun a b h => hp (a, b) h) (by simpa using fun a b h => hq (a, b) h)
    (disj_map_fst.1 dp) (disj_map_fst.1 dq)
  have hdne : dom ≠ [] := by
    rintro rfl
    obtain ⟨s, hs⟩ := List.exists_mem_of_ne_nil p np
    obtain ⟨n, hn⟩ := ho_mem (hp s hs)
    obtain ⟨t, ht, hn'⟩ := (hcov n).1 ⟨s, hs, hn⟩
    obtain ⟨d, hd, -⟩ := d4 _ ⟨s.1, List.mem_map.2 ⟨s, hs, rfl⟩, hn⟩ ⟨t.1, List.mem_map.2 ⟨t, ht, rfl⟩, hn'⟩
    simp at hd
  obtain ⟨A, hA, a1, a2⟩ := domain_spec hp
  obtain ⟨B, hB, b1, b2⟩ := domain_spec hq
  have nA : ∃ n : ℤ, A.Mem (fin n) := by
    obtain ⟨s, hs⟩ := List.exists_mem_of_ne_nil p np
    obtain ⟨n, hn⟩ := ho_mem (hp s hs)
    exact ⟨n, (a1 n).2 ⟨s, hs, hn⟩⟩
  have nB : ∃ n : ℤ, B.Mem (fin n) := by
    obtain ⟨n, hn⟩ := nA
    exact ⟨n, (b1 n).2 ((hcov n).1 ((a1 n).1 hn))⟩
  have hU : ∃ W, nsUnion A B = .ok W := by
    have hl := all_pieces.1 a2.2.1
    have ho := all_pieces.1 b2.2.1
    have key : ∀ l o : List CS, (∀ c ∈ l, c.HalfOpenOrEmpty) → (∀ c ∈ o, c.HalfOpenOrEmpty) →
        ∃ W, RS.union l o = .ok W := by
      intro l o hl ho
      obtain ⟨D', h3, -⟩ := simplify_normal (l := l ++ o) (by
        intro s hs
        rcases List.mem_append.1 hs with hs | hs
        · exact hl s hs
        · exact ho s hs)
      exact ⟨D', h3⟩
    cases A with
    | cs a =>
      cases B with
      | cs b =>
        obtain ⟨D, h, -⟩ := CS.union_spec (hl a (by simp [RS.pieces])).good.1 (ho b (by simp [RS.pieces])).good.1
          (hl a (by simp [RS.pieces])).good.2 (ho b (by simp [RS.pieces])).good.2
        exact ⟨D, h⟩
      | rs o => exact (domain_shape hp hq hcov hA hB).elim
    | rs l =>
      cases B with
      | cs b => exact key l [b] hl ho
      | rs o => exact key l o hl ho
  obtain ⟨W, hU⟩ := hU
  obtain ⟨w1, w2⟩ := nsUnion_spec a2 b2 nA nB hU
  obtain ⟨u, hu, u1, u2⟩ := nsDifference_spec w2 d1
  have hun : ∀ n : ℤ, ¬ u.Mem (fin n) := by
    intro n
    rw [u1, w1, a1, b1]
    rintro ⟨h1, h2⟩
    have hpn : p.Covers n := by
      rcases h1 with h1 | h1
      · exact h1
      · exact (hcov n).2 h1
    obtain ⟨s, hs, hsn⟩ := hpn
    obtain ⟨t, ht, htn⟩ := (hcov n).1 ⟨s, hs, hsn⟩
    exact h2 (d4 _ ⟨s.1, List.mem_map.2 ⟨s, hs, rfl⟩, hsn⟩ ⟨t.1, List.mem_map.2 ⟨t, ht, rfl⟩, htn⟩)
  have hst : ∀ s ∈ undefOn (und (RS.pieces u)), s.1 ∈ RS.pieces u ∧ s.2 = .undef := by
    intro s hs
    obtain ⟨i, hi, rfl⟩ := List.mem_map.1 (undefOn_spec.mem_iff.1 hs)
    refine ⟨?_, rfl⟩
    rcases hund (RS.pieces u) with e | e
    · rwa [e] at hi
    · rw [e.1] at hi; simp at hi
  have hst1 : ∀ s ∈ undefOn (und (RS.pieces u)), s.1.HalfOpenOrEmpty :=
    fun s hs => all_pieces.1 u2.2.1 _ (hst s hs).1
  have hst2 : (undefOn (und (RS.pieces u))).Disj := by
    refine disj_perm undefOn_spec.symm ?_
    rw [disj_map_fst, List.map_map]
    have : (fun s : CS × Fn => s.1) ∘ (fun i : CS => (i, Fn.undef)) = id := rfl
    rw [this, List.map_id]
    rcases hund (RS.pieces u) with e | e
    · rw [e]; exact u2.1
    · rw [e.1]; exact List.Pairwise.nil
  let F : CS → Except Err Fn := fun i => op ((atPos p (pv i)).getD .undef) ((atPos q (pv i)).getD .undef)
  have hstep : pointwiseStep op pv p q =
    fun (r : PF) (i : CS) => (do let f ← F i; overwriteAt r i f : Except Err PF) := rfl
  have hF : ∀ d ∈ dom, ∃ f, F d = .ok f ∧ P f := by
    intro d hd
    obtain ⟨i, hi, j, hj, e1, e2, hm⟩ := d3 d hd
    obtain ⟨s, hs, rfl⟩ := List.mem_map.1 hi
    obtain ⟨t, ht, rfl⟩ := List.mem_map.1 hj
    have hsel := hpv s hs t ht d (d1 d hd) e1 e2
    have x1 := atPos_selects hp dp hs (d1 d hd) (fun x hx => ((hm x).1 hx).1) hsel
    have x2 := atPos_selects hq dq ht (d1 d hd) (fun x hx => ((hm x).1 hx).2) hsel
    simp only [F, x1, x2, Option.getD_some]
    exact hop s hs t ht
  obtain ⟨r, hr, hP1⟩ := fold_ok (F := F) (P := P) d1 hst1 hF (fun s hs hh => by
    exfalso
    obtain ⟨n, hn⟩ := ho_mem hh
    exact hun n (mem_pieces.2 ⟨s.1, (hst s hs).1, hn⟩))
  obtain ⟨-, g2, g3, -⟩ := fold_spec (F := F) d1 d2 hst1 hst2 hr
  have g2 := g2 hdne
  have hP2 : ∀ s ∈ r, P s.2 := fun s hs => hP1 s hs (g2 s hs)
  have hP' : ∀ s ∈ r, s.2 ≠ .undef := fun s hs => hP _ (hP2 s hs)
  obtain ⟨r1, hr1⟩ := simplify_ok (fun s hs => norm_ne (g2 s hs)) g3
    (fun s hs t _ => eq_ok_of_ne_undef (hP' s hs))
  refine ⟨r1, ?_, ?_⟩
  · simp only [pointwise, hdom, hA, hB, hU, hu, bind, Except.bind, hstep]
    have hr' := hr
    simp only [bind, Except.bind] at hr'
    rw [hr']
    exact hr1
  · obtain ⟨-, k1, k2⟩ := simplify_spec (val := fun _ => 0) (fun s hs => norm_ne (g2 s hs)) hr1
    have k3 := simplify_halfOpen g2 hr1
    have k4 := simplify_fns hP2 hr1
    obtain ⟨r2, hr2⟩ := simplify_ok k1 (sorted_disj k2) (fun s hs t _ => eq_ok_of_ne_undef (hP _ (k4 s hs)))
    exact ⟨r2, hr2, fun s hs => ⟨simplify_halfOpen k3 hr2 s hs, simplify_fns k4 hr2 s hs⟩⟩

/-- `add` and `mul` return for two functions with the same domain, if the operation does not raise. -/
theorem pointwise_ok {op : Fn → Fn → Except Err Fn} {pv : CS → FP} {und : List CS → List CS} {p q : PF}
    (hund : ∀ l, und l = l ∨ (und l = [] ∧ ∀ c ∈ l, c.isempty = true))
    (hp : ∀ s ∈ p, s.1.HalfOpen) (hq : ∀ s ∈ q, s.1.HalfOpen) (dp : p.Disj) (dq : q.Disj)
    (np : p ≠ []) (hcov : ∀ n, p.Covers n ↔ q.Covers n)
    (hpv : ∀ s ∈ p, ∀ t ∈ q, ∀ d : CS, d.HalfOpen → d.lower = max s.1.lower t.1.lower →
      d.upper = min s.1.upper t.1.upper → Selects d (pv d))
    (hop : ∀ s ∈ p, ∀ t ∈ q, ∃ f, op s.2 t.2 = .ok f ∧ f ≠ .undef) :
    ∃ r, pointwise op pv und p q = .ok r ∧ ∃ r', simplify r = .ok r' := by
  obtain ⟨r, h1, r', h2, -⟩ := pointwise_fns (P := fun f => f ≠ .undef) (fun _ h => h) hund hp hq dp dq np hcov hpv hop
  exact ⟨r, h1, r', h2⟩

end PF
end Verif.Fun
