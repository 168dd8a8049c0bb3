import Verif.Functions.ApproxLemmas5

/-!
# The candidates of the approximation
-/

namespace Verif.Fun

open Iv Iv.FP

namespace PF

variable {val : ℤ → ℚ} {rnd : ℚ → ℤ} {plf : PF} {kind : By} {f0 fl : Fn} {K : List ℤ} {B : ℤ → ℤ → Fn → Prop}
  {Er : ℤ → ℤ → ℚ → Prop} {nodes : ℕ → Repl} {emax : Option ℚ}

/-- The state while the candidates are built. -/
structure Early (B : ℤ → ℤ → Fn → Prop) (Er : ℤ → ℤ → ℚ → Prop) (st : Approx) (ks : List ℤ) : Prop where
  nodes : Nodes B Er st.nodes ks (List.range st.size)
  linked : Linked st.nodes none (List.range st.size) none
  queue : st.queue = List.range st.size

theorem append_spec {st : Approx} {n : Repl} {P : List ℤ} {a b c : ℤ} (h : Early B Er st (P ++ [a, b]))
    (hn : NodeOk B Er n a b c) (h1 : n.prev = none) (h2 : n.next = none) :
    Early B Er (st.append n) (P ++ [a, b, c]) ∧ (st.append n).result = st.result := by
  unfold Approx.append
  by_cases h0 : st.size = 0
  · rw [if_pos h0]
    have e1 : st.push n = ⟨st.result, Function.update st.nodes 0 n, 1, [0]⟩ := by
      simp [Approx.push, h0, h.queue]
    rw [e1]
    have e2 : P = [] := by
      have := h.nodes.length
      rw [h0] at this
      exact List.length_eq_zero_iff.1 (by simpa using this.symm)
    subst e2
    refine ⟨⟨?_, ?_, rfl⟩, rfl⟩
    · exact .cons (by simpa using hn) (.two b c)
    · simp [Linked, h1, h2]
  · rw [if_neg h0]
    obtain ⟨k, hk⟩ : ∃ k, st.size = k + 1 := ⟨st.size - 1, by omega⟩
    have hr : List.range st.size = List.range k ++ [k] := by rw [hk, List.range_succ]
    have hkn : k ∉ List.range k := by simp
    have hlk := h.linked
    rw [hr] at hlk
    have hl := Linked.setNext (q' := some (k + 1)) hkn hlk
    have e1 : ({ st with nodes := setNext st.nodes (st.size - 1) (some st.size) } : Approx).push
        { n with prev := some (st.size - 1) } = ⟨st.result, Function.update (setNext st.nodes k (some (k + 1))) (k + 1)
          { n with prev := some k }, k + 2, List.range (k + 1) ++ [k + 1]⟩ := by
      simp [Approx.push, hk, h.queue]
    rw [e1]
    have hfr : ∀ j ∈ List.range (k + 1), Function.update (setNext st.nodes k (some (k + 1))) (k + 1)
        { n with prev := some k } j = setNext st.nodes k (some (k + 1)) j := by
      intro j hj
      rw [Function.update_of_ne]
      have := List.mem_range.1 hj
      omega
    refine ⟨⟨?_, ?_, ?_⟩, rfl⟩
    · simp only
      rw [List.range_succ]
      have hN := h.nodes
      rw [hk] at hN
      refine Nodes.join (P := P) (.cons ?_ (.two b c)) (hN.frame (fun j hj => ?_))
      · simpa using (⟨hn.left, hn.right, hn.new, hn.error⟩ : NodeOk B Er { n with prev := some k } a b c)
      · rw [hfr j hj]
        obtain ⟨-, q2, q3, q4, q5, -⟩ := setNext_core st.nodes k (some (k + 1)) j
        exact ⟨q2, q3, q4, q5⟩
    · simp only
      rw [List.range_succ, Linked.append]
      refine ⟨Linked.frame (fun j hj => by rw [hfr j hj]; exact ⟨rfl, rfl⟩) ?_, ?_⟩
      · rw [List.range_succ]
        simpa using hl
      · simp [Linked, h2, List.range_succ]
    · simp only
      rw [← List.range_succ]

theorem co_contiguous {a b c : ℤ} (h : a < b) (h' : b < c) : (co a b).contiguous (co b c) = true := by
  have e1 := (co_halfOpen h).nonempty
  have e2 := (co_halfOpen h').nonempty
  simp [CS.contiguous, co, Br.code]

theorem co_inf {a b : ℤ} : (co a b).isninf = false ∧ (co a b).ispinf = false := by
  simp [co, CS.isninf, CS.ispinf, FP.isInf]

theorem candidates_spec (T : Theory val rnd plf kind f0 K B Er) {z : ℤ} : ∀ {bs : PF} {P ks : List ℤ} {a b : ℤ} {f : Fn}
    {st : Approx}, Blocks B (b :: ks) bs → B a b f → Early B Er st (P ++ [a, b]) →
    (P ++ a :: b :: ks).Pairwise (· < ·) → (∀ k ∈ a :: b :: ks, k ∈ K) →
    ∃ st', candidates val rnd plf kind ((co a b, f) :: bs ++ [(lastI z, fl)]) st = .ok st' ∧
      Early B Er st' (P ++ a :: b :: ks) ∧ st'.result = st.result := by
  intro bs
  induction bs with
  | nil =>
    intro P ks a b f st hb hf he hs hK
    cases hb
    refine ⟨st, ?_, he, rfl⟩
    simp [candidates, lastI, CS.ispinf, FP.isInf]
  | cons s bs ih =>
    intro P ks a b f st hb hf he hs hK
    cases hb with
    | @cons _ c ks g bs hg hb =>
      obtain ⟨hab, hbc, -, -, -⟩ := sorted_three (a := a) (b := b) (c := c) (by simp) hs
      obtain ⟨n, n1, n2, n3, n4⟩ := T.build (hK a (by simp)) (hK b (by simp)) (hK c (by simp)) hab hbc hf hg
      obtain ⟨d1, d2⟩ := append_spec he n2 n3 n4
      obtain ⟨st', e1, e2, e3⟩ := ih (P := P ++ [a]) (a := b) (b := c) (ks := ks) (f := g) (st := st.append n) hb hg
        (by simpa using d1) (by simpa using hs) (fun k hk => hK k (List.mem_cons_of_mem _ hk))
      refine ⟨st', ?_, by simpa using e2, e3.trans d2⟩
      simp only [List.cons_append] at e1
      simp only [candidates, List.cons_append, co_contiguous hab hbc, co_inf, n1, e1, bind, Except.bind]
      simp

/-- The result of the approximation. -/
theorem approximate_spec {p : PF} (T : Theory val rnd p kind f0 K B Er) (hK : K.Pairwise (· < ·))
    (hp : Framed B f0 fl K p) {pick : List (Fn.Fl × ℕ) → ℕ} (hpick : ∀ l, l ≠ [] → pick l < l.length) {k : Option ℕ}
    (hk : ∀ m, k = some m → 3 ≤ m) :
    ∃ r ks, approximate val rnd pick kind p emax k = .ok r ∧ ks.Sublist K ∧
      (ks.head? = K.head? ∧ ks.getLast? = K.getLast?) ∧ ks.IsChain (Fine K Er emax) ∧ Framed B f0 fl ks r ∧
      (emax = none → r.length = min p.length (k.getD 3)) ∧ min p.length (k.getD 3) ≤ r.length := by
  have hk3 : 3 ≤ k.getD 3 := by cases k with
    | none => simp
    | some m => simpa using hk m rfl
  have hfine : K.IsChain (Fine K Er emax) := by
    rw [List.isChain_iff_getElem]
    intro i hi
    refine .inl ⟨K.take i, K.drop (i + 2), ?_⟩
    conv_lhs => rw [← List.take_append_drop i K]
    rw [List.drop_eq_getElem_cons (by omega), List.drop_eq_getElem_cons (by omega)]
  have hplen := hp.length
  obtain ⟨x, z, bs, hx, hz, hbs, hpe⟩ := hp
  have hinit : ∃ st, candidates val rnd p kind p ⟨p, fun _ => noRepl, 0, []⟩ = .ok st ∧ Early B Er st K ∧ st.result = p := by
    cases hbs with
    | one a =>
      refine ⟨⟨p, fun _ => noRepl, 0, []⟩, ?_, ⟨.one a, trivial, rfl⟩, rfl⟩
      rw [hpe]
      simp [candidates, firstI, CS.isninf, FP.isInf]
    | @cons a b ks f bs hf hb =>
      obtain ⟨st, e1, e2, e3⟩ := candidates_spec (plf := p) (fl := fl) (z := z) T (P := []) (ks := ks) (a := a) (b := b)
        (st := ⟨p, fun _ => noRepl, 0, []⟩) hb hf ⟨.two a b, trivial, rfl⟩ (by simpa using hK) (fun k hk => hk)
      refine ⟨st, ?_, by simpa using e2, e3⟩
      rw [← e1]
      conv_lhs => rw [hpe]
      simp only [List.cons_append, candidates]
      rw [if_pos (by simp [firstI, CS.isninf, FP.isInf]), hpe]
      rfl
  obtain ⟨st, e1, e2, e3⟩ := hinit
  have hsz : st.size = K.length - 2 := by simpa using e2.nodes.length
  obtain ⟨r, ks, g1, g2, g3, g4, g5, g6, g7⟩ := loop_spec (emax := emax) T hK hpick hk3 (fuel := st.size) (st := st) (ks := K)
    (ord := List.range st.size)
    ⟨List.Sublist.refl K, ⟨rfl, rfl⟩, hfine, by rw [e3]; exact ⟨x, z, bs, hx, hz, hbs, hpe⟩, e2.nodes, e2.linked,
      by rw [e2.queue], List.nodup_range, fun j hj => List.mem_range.1 hj⟩ (by omega)
  have hr := g5.length
  have hsub := g2.length_le
  refine ⟨r, ks, ?_, g2, g3, g4, g5, ?_, ?_⟩
  · unfold approximate
    rw [if_neg]
    · simp only [e1, bind, Except.bind, g1]
    · cases k with
      | none => simp
      | some m => simpa using hk m rfl
  · intro h
    rcases g6 with g6 | g6 | g6
    · omega
    · exact absurd h g6
    · omega
  · omega

end PF

end Verif.Fun
