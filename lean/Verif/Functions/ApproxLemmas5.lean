import Verif.Functions.ApproxLemmas4

/-!
# The loop of the approximation keeps its invariant
-/

namespace Verif.Fun

open Iv Iv.FP

namespace PF

variable {val : ℤ → ℚ} {rnd : ℚ → ℤ} {plf : PF} {kind : By} {f0 fl : Fn} {K : List ℤ} {B : ℤ → ℤ → Fn → Prop}
  {Er : ℤ → ℤ → ℚ → Prop} {nodes : ℕ → Repl} {emax : Option ℚ}

theorem sorted_last {ks : List ℤ} (hs : ks.Pairwise (· < ·)) {z : ℤ} (hz : ks.getLast? = some z) : ∀ x ∈ ks, x ≤ z := by
  obtain ⟨P, rfl⟩ : ∃ P, ks = P ++ [z] := by
    rcases List.eq_nil_or_concat ks with h | ⟨X', y, h⟩
    · subst h; simp at hz
    · refine ⟨X', ?_⟩
      have h' : ks = X' ++ [y] := by simpa using h
      subst h'
      simp at hz
      rw [hz]
  rw [List.pairwise_append] at hs
  intro x hx
  rcases List.mem_append.1 hx with hx | hx
  · exact (hs.2.2 x hx z (by simp)).le
  · simp at hx; omega

theorem sorted_head {ks : List ℤ} (hs : ks.Pairwise (· < ·)) {z : ℤ} (hz : ks.head? = some z) : ∀ x ∈ ks, z ≤ x := by
  cases ks with
  | nil => simp at hz
  | cons a ks =>
    simp at hz
    subst hz
    intro x hx
    rcases List.mem_cons.1 hx with rfl | hx
    · exact le_refl _
    · exact ((List.pairwise_cons.1 hs).1 x hx).le

/-- The pieces after one replacement. -/
theorem pieces_step (T : Theory val rnd plf kind f0 K B Er) {P Q : List ℤ} {a b c : ℤ} {p : PF} {n : Repl}
    (hs : (P ++ a :: b :: c :: Q).Pairwise (· < ·)) (hK : ∀ k ∈ P ++ a :: b :: c :: Q, k ∈ K)
    (hp : Framed B f0 fl (P ++ a :: b :: c :: Q) p) (hn : NodeOk B Er n a b c) :
    ∃ p₁ p₂ p₃, remove p n.left = .ok p₁ ∧ remove p₁ n.right = .ok p₂ ∧ overwriteAt p₂ n.new.i n.new.f = .ok p₃ ∧
      Framed B f0 fl (P ++ a :: c :: Q) p₃ := by
  obtain ⟨x, z, bs, hx, hz, hbs, rfl⟩ := hp
  obtain ⟨b₁, b₂, rfl, hb1, hb2⟩ := hbs.split
  cases hb2 with
  | @cons _ _ _ f b₂ hf hb2 =>
  cases hb2 with
  | @cons _ _ _ g b₂ hg hb2 =>
  have hxa : x ≤ a := sorted_head hs hx a (by simp)
  have hzc : c ≤ z := sorted_last hs hz c (by simp)
  have hab : a < b := (List.pairwise_append.1 hs).2.1 |> fun h => (List.pairwise_cons.1 h).1 b (by simp)
  have hbc : b < c := (List.pairwise_append.1 hs).2.1 |> fun h =>
    (List.pairwise_cons.1 (List.pairwise_cons.1 h).2).1 c (by simp)
  have s1 : (P ++ [a]).Pairwise (· < ·) := hs.sublist (by simp)
  have s2 : (c :: Q).Pairwise (· < ·) := (List.pairwise_append.1 hs).2.1 |> fun h =>
    (List.pairwise_cons.1 (List.pairwise_cons.1 h).2).2
  have m1 : ∀ s ∈ b₁, ∃ a' b', s.1 = co a' b' ∧ B a' b' s.2 ∧ a' ∈ K ∧ b' ∈ K ∧ a' < b' ∧ b' ≤ a := by
    intro s hs'
    obtain ⟨a', b', e1, e2, e3, e4, e5⟩ := hb1.mem s1 s hs'
    refine ⟨a', b', e1, e2, hK _ ?_, hK _ ?_, e5, sorted_last (z := a) s1 (by simp) b' e4⟩
    · simp only [List.mem_append, List.mem_cons, List.not_mem_nil, or_false] at e3 ⊢; tauto
    · simp only [List.mem_append, List.mem_cons, List.not_mem_nil, or_false] at e4 ⊢; tauto
  have m2 : ∀ s ∈ b₂, ∃ a' b', s.1 = co a' b' ∧ a' < b' ∧ c ≤ a' := by
    intro s hs'
    obtain ⟨a', b', e1, e2, e3, e4, e5⟩ := hb2.mem s2 s hs'
    exact ⟨a', b', e1, e5, sorted_head s2 (by simp) a' e3⟩
  have ha : a ∈ K := hK a (by simp)
  have hb : b ∈ K := hK b (by simp)
  have hc : c ∈ K := hK c (by simp)
  have r1 : remove (((firstI x, f0) :: b₁) ++ (co a b, f) :: ((co b c, g) :: b₂ ++ [(lastI z, fl)])) n.left =
      .ok (((firstI x, f0) :: b₁) ++ ((co b c, g) :: b₂ ++ [(lastI z, fl)])) := by
    refine remove_eq ?_ ?_ ?_ (T.refl hf hn.left.2)
    · intro s hs'
      rw [hn.left.1]
      rcases List.mem_cons.1 hs' with rfl | hs'
      · exact firstI_eq
      · obtain ⟨a', b', e1, -, -, -, e5, e6⟩ := m1 s hs'
        rw [e1, co_eq e5 hab]
        simp; omega
    · rw [hn.left.1, co_eq hab hab]; simp
    · intro s hs'
      rcases List.mem_cons.1 hs' with rfl | hs'
      · exact T.first ha hb hab hn.left.2
      · obtain ⟨a', b', e1, e2, e3, e4, e5, e6⟩ := m1 s hs'
        exact T.ne e3 e4 ha hb e5 e6 hab e2 hn.left.2
  have r2 : remove (((firstI x, f0) :: b₁) ++ (co b c, g) :: (b₂ ++ [(lastI z, fl)])) n.right =
      .ok (((firstI x, f0) :: b₁) ++ (b₂ ++ [(lastI z, fl)])) := by
    refine remove_eq ?_ ?_ ?_ (T.refl hg hn.right.2)
    · intro s hs'
      rw [hn.right.1]
      rcases List.mem_cons.1 hs' with rfl | hs'
      · exact firstI_eq
      · obtain ⟨a', b', e1, -, -, -, e5, e6⟩ := m1 s hs'
        rw [e1, co_eq e5 hbc]
        simp; omega
    · rw [hn.right.1, co_eq hbc hbc]; simp
    · intro s hs'
      rcases List.mem_cons.1 hs' with rfl | hs'
      · exact T.first hb hc hbc hn.right.2
      · obtain ⟨a', b', e1, e2, e3, e4, e5, e6⟩ := m1 s hs'
        exact T.ne e3 e4 hb hc e5 (by omega) hbc e2 hn.right.2
  have r3 : overwriteAt (((firstI x, f0) :: b₁) ++ (b₂ ++ [(lastI z, fl)])) n.new.i n.new.f =
      .ok (((firstI x, f0) :: b₁) ++ (co a c, n.new.f) :: (b₂ ++ [(lastI z, fl)])) := by
    rw [hn.new.1]
    refine overwriteAt_gap (co_halfOpen (by omega)) ?_ ?_
    · intro s hs'
      rcases List.mem_cons.1 hs' with rfl | hs'
      · refine ⟨firstI_halfOpen x, fun m => ?_, ?_⟩
        · rw [firstI_mem, co_mem]; omega
        · simp [co, firstI, CS.uppermost, CS.lowermost, FP.dn, FP.up, FP.lt_def, leb]
      · obtain ⟨a', b', e1, e2, e3, e4, e5, e6⟩ := m1 s hs'
        rw [e1]
        refine ⟨co_halfOpen e5, fun m => ?_, ?_⟩
        · rw [co_mem, co_mem]; omega
        · simp [co, CS.uppermost, CS.lowermost, FP.dn, FP.lt_def, leb]; omega
    · intro s hs'
      rcases List.mem_append.1 hs' with hs' | hs'
      · obtain ⟨a', b', e1, e5, e6⟩ := m2 s hs'
        rw [e1]
        refine ⟨co_halfOpen e5, fun m => ?_, ?_⟩
        · rw [co_mem, co_mem]; omega
        · simp [co, CS.uppermost, CS.lowermost, FP.dn, FP.lt_def, leb]; omega
      · simp at hs'
        subst hs'
        refine ⟨lastI_halfOpen z, fun m => ?_, ?_⟩
        · rw [lastI_mem, co_mem]; omega
        · simp [co, lastI, CS.uppermost, CS.lowermost, FP.dn, FP.lt_def, leb]; omega
  refine ⟨_, _, _, ?_, r2, r3, x, z, b₁ ++ (co a c, n.new.f) :: b₂, ?_, ?_, hb1.join (.cons hn.new.2 hb2), ?_⟩
  · simpa using r1
  · cases P <;> simpa using hx
  · simpa [List.getLast?_cons] using hz
  · simp

/-- One round of the loop. -/
theorem loop_step (T : Theory val rnd plf kind f0 K B Er) (hK : K.Pairwise (· < ·)) {st : Approx} {ks : List ℤ}
    {ord : List ℕ} (h : Inv B Er f0 fl K emax st ks ord) {j id : ℕ} (hj : st.queue[j]? = some id)
    (he : exceeds emax (st.nodes id).error = false) :
    ∃ p₁ p₂ p₃ st₁ l st₂ r ks' ord', remove st.result (st.nodes id).left = .ok p₁ ∧
      remove p₁ (st.nodes id).right = .ok p₂ ∧
      overwriteAt p₂ (st.nodes id).new.i (st.nodes id).new.f = .ok p₃ ∧
      addLeft val rnd plf kind (st.nodes id) { st with result := p₃, queue := st.queue.eraseIdx j } = .ok (st₁, l) ∧
      addRight val rnd plf kind (st.nodes id) st₁ = .ok (st₂, r) ∧
      Inv B Er f0 fl K emax (link st₂ l r) ks' ord' ∧ ks'.length + 1 = ks.length := by
  have hid : id ∈ ord := h.perm.mem_iff.1 (List.mem_of_getElem? hj)
  obtain ⟨X, Y, rfl⟩ := List.append_of_mem hid
  obtain ⟨P, a, b, c, Q, rfl, hXP, hn, hX, hY⟩ := h.nodes.at
  have hs : (P ++ a :: b :: c :: Q).Pairwise (· < ·) := hK.sublist h.sub
  have hKk : ∀ k ∈ P ++ a :: b :: c :: Q, k ∈ K := fun k hk => h.sub.subset hk
  obtain ⟨p₁, p₂, p₃, e1, e2, e3, e4⟩ := pieces_step T hs hKk h.res hn
  obtain ⟨hab, hbc, ma, mb, mc⟩ := sorted_three (a := a) (b := b) (c := c) (by simp) hs
  have hqe : (st.queue.eraseIdx j).Perm (X ++ Y) := by
    obtain ⟨U, V, e5, e6⟩ : ∃ U V, st.queue = U ++ id :: V ∧ U.length = j := by
      obtain ⟨hlt, hg⟩ := List.getElem?_eq_some_iff.1 hj
      refine ⟨st.queue.take j, st.queue.drop (j + 1), ?_, by simp; omega⟩
      rw [← hg]
      simp
    rw [e5, ← e6, eraseIdx_append]
    have := h.perm
    rw [e5] at this
    exact (List.perm_middle.symm.trans (this.trans List.perm_middle)).cons_inv
  have hnd : (X ++ Y).Nodup := h.nodup.sublist (by simp)
  have hl := h.linked
  rw [Linked.append] at hl
  obtain ⟨hl1, hl2, hl3, hl4⟩ := hl
  simp only [List.head?_cons, Option.or_none] at hl1 hl2 hl3
  have sY : (b :: c :: Q).Pairwise (· < ·) := hs.sublist (by
    refine List.Sublist.trans ?_ (List.sublist_append_right P _)
    simp)
  obtain ⟨st₁, X', f1, f2, f3, f4, f5, f6, f7, f8⟩ := addLeft_spec T (P := P) (a := a) (b := b) (c := c) (w := some id)
    (st := { st with result := p₃, queue := st.queue.eraseIdx j }) (r := st.nodes id) hX hl1
    (by rw [hl2]) hn.new
    (hs.sublist (by simp)) hbc (fun k hk => hKk k (by
      simp only [List.mem_append, List.mem_cons, List.not_mem_nil, or_false] at hk ⊢; tauto)) (hKk c mc) hqe hnd
    (fun x hx => h.fresh x (by simp only [List.mem_append, List.mem_cons] at hx ⊢; tauto))
    (fun y hy => by
      obtain ⟨a', b', c', g1, g2⟩ := hY.mem y hy
      obtain ⟨g3, g4, g5, g6, g7⟩ := sorted_three g2 sY
      exact ⟨a', b', c', g1, g3, g4, sorted_head sY (by simp) _ g5⟩)
  have s3 : (P ++ [a, c]).Pairwise (· < ·) := hs.sublist (by simp)
  obtain ⟨st₂, Y', g1, g2, g3, g4, g5, g6, g7, g8⟩ := addRight_spec T (Q := Q) (a := a) (b := b) (c := c) (w := some id)
    (X := X') (Y := Y) (st := st₁) (r := st.nodes id) (hY.frame (fun y hy => by rw [f8 y hy]; simp))
    (Linked.frame (fun y hy => by rw [f8 y hy]; simp) hl4) hl3 hn.new sY hab
    (fun k hk => hKk k (by
      simp only [List.mem_append, List.mem_cons] at hk ⊢; tauto)) (hKk a ma) f5 f7 f6 (fun x hx => by
      obtain ⟨a', b', c', k1, k2⟩ := f3.mem x hx
      obtain ⟨k3, k4, k5, k6, k7⟩ := sorted_three k2 s3
      refine ⟨a', b', c', k1, k3, k4, ?_⟩
      have k8 := sorted_last (z := c) s3 (by simp) c' k7
      rw [List.pairwise_append] at s3
      rcases List.mem_append.1 k5 with hh | hh
      · have := s3.2.2 a' hh a (by simp); omega
      · simp only [List.mem_cons, List.not_mem_nil, or_false] at hh
        rcases hh with hh | hh <;> omega)
  obtain ⟨N, n1, n2, n3⟩ := link_spec (st := st₂) (X := X') (Y := Y') (Linked.frame (fun x hx => by rw [g8 x hx]; simp) f4) g4
    g7
  refine ⟨p₁, p₂, p₃, st₁, _, st₂, _, P ++ a :: c :: Q, X' ++ Y', e1, e2, e3, f1, g1, ?_, by simp; omega⟩
  rw [n1]
  refine ⟨List.Sublist.trans (by simp) h.sub, ?_, ?_, ?_, ?_, n2, g5, g7, g6⟩
  · rw [← h.ends.1, ← h.ends.2]
    refine ⟨?_, ?_⟩
    · cases P <;> simp
    · simp [List.getLast?_cons]
  · have hf := h.fine
    rw [List.isChain_append] at hf ⊢
    obtain ⟨q1, q2, q3⟩ := hf
    rw [List.isChain_cons_cons, List.isChain_cons_cons] at q2
    rw [List.isChain_cons_cons]
    refine ⟨q1, ⟨.inr ?_, q2.2.2⟩, by simpa using q3⟩
    obtain ⟨e, w1, w2⟩ := hn.error
    refine ⟨e, w2, ?_⟩
    rintro m rfl
    rw [w1] at he
    simpa [exceeds] using he
  · have : st₂.result = p₃ := by rw [g2, f2]
    simpa [this] using e4
  · refine Nodes.frame (nodes := st₂.nodes) ?_ (fun i _ => n3 i)
    exact Nodes.join g3 (f3.frame (fun x hx => by rw [g8 x hx]; simp))

theorem Framed.length {ks : List ℤ} {p : PF} (h : Framed B f0 fl ks p) : p.length = ks.length + 1 := by
  obtain ⟨x, z, bs, -, -, h3, rfl⟩ := h
  have := h3.length
  simp; omega

/-- The loop. -/
theorem loop_spec (T : Theory val rnd plf kind f0 K B Er) (hK : K.Pairwise (· < ·)) {pick : List (Fn.Fl × ℕ) → ℕ}
    (hpick : ∀ l, l ≠ [] → pick l < l.length) {k : ℕ} (hk : 3 ≤ k) : ∀ {fuel : ℕ} {st : Approx} {ks : List ℤ}
    {ord : List ℕ}, Inv B Er f0 fl K emax st ks ord → ks.length ≤ fuel + 2 →
    ∃ r ks', approxLoop val rnd pick plf kind k emax fuel st = .ok r ∧ ks'.Sublist K ∧
      (ks'.head? = K.head? ∧ ks'.getLast? = K.getLast?) ∧ ks'.IsChain (Fine K Er emax) ∧ Framed B f0 fl ks' r ∧
      (r.length ≤ k ∨ emax ≠ none ∨ ks'.length ≤ 2) ∧ min ks.length (k - 1) ≤ ks'.length
  | fuel, st, ks, ord, h, hf => by
    have hlen := h.nodes.length
    have hql : st.queue.length = ord.length := h.perm.length_eq
    unfold approxLoop
    cases hq : st.queue with
    | nil =>
      simp only
      rw [hq] at hql
      simp at hql
      exact ⟨_, ks, rfl, h.sub, h.ends, h.fine, h.res, .inr (.inr (by omega)), by omega⟩
    | cons w q =>
      simp only
      cases fuel with
      | zero => rw [hq] at hql; simp at hql; omega
      | succ fuel =>
        simp only
        rw [← hq]
        set j := pick (st.queue.map (fun i => ((st.nodes i).error, i))) with hjd
        have hjl : j < st.queue.length := by
          have := hpick (st.queue.map (fun i => ((st.nodes i).error, i))) (by rw [hq]; simp)
          rwa [List.length_map] at this
        rw [List.getElem?_eq_getElem hjl]
        simp only
        by_cases hc : st.result.length ≤ k ∨ exceeds emax (st.nodes st.queue[j]).error = true
        · rw [if_pos hc]
          refine ⟨_, ks, rfl, h.sub, h.ends, h.fine, h.res, ?_, by omega⟩
          rcases hc with hc | hc
          · exact .inl hc
          · refine .inr (.inl ?_)
            rintro rfl
            simp [exceeds] at hc
        · rw [if_neg hc]
          rw [not_or] at hc
          obtain ⟨p₁, p₂, p₃, st₁, l, st₂, r, ks', ord', e1, e2, e3, e4, e5, e6, e7⟩ := loop_step T hK h
            (List.getElem?_eq_getElem hjl) (by simpa using hc.2)
          simp only [e1, e2, e3, e4, e5, bind, Except.bind]
          obtain ⟨r, ks'', k1, k2, k3, k4, k5, k6, k7⟩ := loop_spec T hK hpick hk e6 (fuel := fuel) (by omega)
          refine ⟨r, ks'', k1, k2, k3, k4, k5, k6, ?_⟩
          have := h.res.length
          omega

end PF

end Verif.Fun
