import Verif.Functions.ApproxLemmas2

/-!
# One replacement in the approximation
-/

namespace Verif.Fun

open Iv Iv.FP

namespace PF

/-- What is needed of the blocks `B`, whose knots are in `K`, and of the errors `Er`. -/
structure Theory (val : ℤ → ℚ) (rnd : ℚ → ℤ) (plf : PF) (kind : By) (f0 : Fn) (K : List ℤ) (B : ℤ → ℤ → Fn → Prop)
    (Er : ℤ → ℤ → ℚ → Prop) : Prop where
  refl : ∀ {a b f g}, B a b f → B a b g → f.eq g = .ok true
  total : ∀ {a b c d f g}, B a b f → B c d g → ∃ v, f.eq g = .ok v
  ne : ∀ {a b c d f g}, a ∈ K → b ∈ K → c ∈ K → d ∈ K → a < b → b ≤ c → c < d → B a b f → B c d g → f.eq g = .ok false
  first : ∀ {a b f}, a ∈ K → b ∈ K → a < b → B a b f → f0.eq f = .ok false
  build : ∀ {a b c f g}, a ∈ K → b ∈ K → c ∈ K → a < b → b < c → B a b f → B b c g →
    ∃ n, construct val rnd plf kind ⟨co a b, f⟩ ⟨co b c, g⟩ = .ok n ∧ NodeOk B Er n a b c ∧ n.prev = none ∧
      n.next = none

variable {val : ℤ → ℚ} {rnd : ℚ → ℤ} {plf : PF} {kind : By} {f0 : Fn} {K : List ℤ} {B : ℤ → ℤ → Fn → Prop}
  {Er : ℤ → ℤ → ℚ → Prop} {nodes : ℕ → Repl}

theorem Nodes.mem {ks : List ℤ} {ord : List ℕ} (h : Nodes B Er nodes ks ord) :
    ∀ x ∈ ord, ∃ a b c, NodeOk B Er (nodes x) a b c ∧ [a, b, c].Sublist ks := by
  induction h with
  | one a => simp
  | two a b => simp
  | @cons a b c ks j ord h1 h2 ih =>
    intro x hx
    rcases List.mem_cons.1 hx with rfl | hx
    · exact ⟨a, b, c, h1, by simp⟩
    · obtain ⟨a', b', c', e1, e2⟩ := ih x hx
      exact ⟨a', b', c', e1, e2.cons _⟩

theorem sorted_three {a b c : ℤ} {ks : List ℤ} (h : [a, b, c].Sublist ks) (hs : ks.Pairwise (· < ·)) :
    a < b ∧ b < c ∧ a ∈ ks ∧ b ∈ ks ∧ c ∈ ks := by
  have := hs.sublist h
  simp only [List.pairwise_cons, List.mem_cons, List.not_mem_nil, or_false, forall_eq_or_imp, forall_eq] at this
  exact ⟨this.1.1, this.2.1, h.subset (by simp), h.subset (by simp), h.subset (by simp)⟩

theorem Seg.same_of (T : Theory val rnd plf kind f0 K B Er) {s t : Seg} {a b c d : ℤ} (hs : s.i = co a b ∧ B a b s.f)
    (ht : t.i = co c d ∧ B c d t.f) (h1 : a < b) (h2 : c < d) :
    (a ≠ c → s.same t = .ok false) ∧ (a = c → b = d → s.same t = .ok true) ∧ ∃ v, s.same t = .ok v := by
  unfold Seg.same
  rw [hs.1, ht.1, co_eq h1 h2]
  refine ⟨fun h => by simp [h], ?_, ?_⟩
  · rintro rfl rfl
    simp [T.refl hs.2 ht.2]
  · by_cases h : a = c ∧ b = d
    · simpa [h] using T.total hs.2 ht.2
    · exact ⟨false, by simp [h]⟩

/-- Replacements with different lower knots are different. -/
theorem Repl.same_of (T : Theory val rnd plf kind f0 K B Er) {m n : Repl} {a b c a' b' c' : ℤ}
    (hm : NodeOk B Er m a b c) (hn : NodeOk B Er n a' b' c') (h1 : a < b) (h2 : b < c) (h3 : a' < b') (h4 : b' < c')
    (hne : a ≠ a') : m.same n = .ok false := by
  have e1 := (Seg.same_of T hm.left hn.left h1 h3).1 hne
  obtain ⟨v, e2⟩ := (Seg.same_of T hm.right hn.right h2 h4).2.2
  have e3 := (Seg.same_of T hm.new hn.new (h1.trans h2) (h3.trans h4)).1 hne
  simp [Repl.same, e1, e2, e3, bind, Except.bind]

theorem Repl.same_self (T : Theory val rnd plf kind f0 K B Er) {m : Repl} {a b c : ℤ}
    (hm : NodeOk B Er m a b c) (h1 : a < b) (h2 : b < c) : m.same m = .ok true := by
  have e1 := (Seg.same_of T hm.left hm.left h1 h1).2.1 rfl rfl
  have e2 := (Seg.same_of T hm.right hm.right h2 h2).2.1 rfl rfl
  have e3 := (Seg.same_of T hm.new hm.new (h1.trans h2) (h1.trans h2)).2.1 rfl rfl
  obtain ⟨e, he, -⟩ := hm.error
  simp [Repl.same, e1, e2, e3, bind, Except.bind, he]

/-- Deleting one of the items of the heap. -/
theorem drop_spec {st : Approx} {p : ℕ} {R : List ℕ} (hq : st.queue.Perm (p :: R))
    (hR : ∀ x ∈ R, (st.nodes x).same (st.nodes p) = .ok false) (hp : (st.nodes p).same (st.nodes p) = .ok true) :
    ∃ q, st.drop p = .ok { st with queue := q } ∧ q.Perm R := by
  have hpn : p ∉ R := fun h => by rw [hR p h] at hp; cases hp
  obtain ⟨U, V, e⟩ := List.append_of_mem (hq.mem_iff.2 (List.mem_cons_self))
  have hUV : (U ++ V).Perm R := by
    rw [e] at hq
    exact (List.perm_middle.symm.trans hq).cons_inv
  refine ⟨U ++ V, ?_, hUV⟩
  have : indexOf (fun i => (st.nodes i).same (st.nodes p)) st.queue = .ok U.length := by
    rw [e, indexOf_append (eq := fun i => (st.nodes i).same (st.nodes p)) hp]
    intro x hx
    exact hR x (hUV.mem_iff.1 (by simp [hx]))
  simp only [Approx.drop, this, bind, Except.bind]
  rw [e, eraseIdx_append]

theorem addLeft_spec (T : Theory val rnd plf kind f0 K B Er) {st : Approx} {r : Repl} {P : List ℤ} {a b c : ℤ}
    {X Y : List ℕ} {w : Option ℕ} (hX : Nodes B Er st.nodes (P ++ [a, b]) X) (hl : Linked st.nodes none X w)
    (hprev : r.prev = X.getLast?) (hnew : r.new.i = co a c ∧ B a c r.new.f) (hs : (P ++ [a, b]).Pairwise (· < ·))
    (hbc : b < c) (hK : ∀ k ∈ P ++ [a, b], k ∈ K) (hc : c ∈ K) (hq : st.queue.Perm (X ++ Y)) (hnd : (X ++ Y).Nodup)
    (hf : ∀ x ∈ X ++ Y, x < st.size)
    (hY : ∀ y ∈ Y, ∃ a' b' c', NodeOk B Er (st.nodes y) a' b' c' ∧ a' < b' ∧ b' < c' ∧ b ≤ a') :
    ∃ st' X', addLeft val rnd plf kind r st = .ok (st', X'.getLast?) ∧ st'.result = st.result ∧
      Nodes B Er st'.nodes (P ++ [a, c]) X' ∧ Linked st'.nodes none X' none ∧ st'.queue.Perm (X' ++ Y) ∧
      (∀ x ∈ X' ++ Y, x < st'.size) ∧ (X' ++ Y).Nodup ∧ (∀ y ∈ Y, st'.nodes y = st.nodes y) := by
  obtain rfl | ⟨X, p, rfl⟩ : X = [] ∨ ∃ X' p, X = X' ++ [p] := by
    rcases List.eq_nil_or_concat X with h | ⟨X', p, h⟩
    · exact .inl h
    · exact .inr ⟨X', p, by simpa using h⟩
  · have hP : P = [] := by
      have := hX.length
      exact List.length_eq_zero_iff.1 (by simpa using this.symm)
    subst hP
    exact ⟨st, [], by simp [addLeft, hprev], rfl, .two a c, trivial, hq, hf, hnd, fun _ _ => rfl⟩
  · obtain ⟨P1, a1, b1, c1, Q1, e1, e2, hp, hX1, hQ1⟩ := hX.at
    have hQ : Q1 = [] := List.length_eq_zero_iff.1 (by simpa using hQ1.length.symm)
    subst hQ
    have e3 : (P1 ++ [a1]) ++ [b1, c1] = P ++ [a, b] := by rw [e1]; simp
    obtain ⟨rfl, e4⟩ := List.append_inj' e3 rfl
    simp only [List.cons.injEq, and_true] at e4
    obtain ⟨rfl, rfl⟩ := e4
    have hsub : [a1, b1, c1].Sublist (P1 ++ [a1] ++ [b1, c1]) := by simp
    obtain ⟨h1, h2, m1, m2, m3⟩ := sorted_three hsub hs
    have hX1' : ∀ x ∈ X, ∃ a' b' c', NodeOk B Er (st.nodes x) a' b' c' ∧ a' < b' ∧ b' < c' ∧ a' < a1 := by
      intro x hx
      obtain ⟨a', b', c', g1, g2⟩ := hX1.mem x hx
      have hs' : (P1 ++ [a1, b1]).Pairwise (· < ·) := hs.sublist (by simp)
      obtain ⟨g3, g4, g5, g6, g7⟩ := sorted_three g2 hs'
      refine ⟨a', b', c', g1, g3, g4, ?_⟩
      rw [List.pairwise_append] at hs'
      obtain ⟨-, -, hs3⟩ := hs'
      simp only [List.mem_append, List.mem_cons, List.not_mem_nil, or_false] at g5 g6 g7 hs3
      have k1 := fun h => hs3 a' h a1 (.inl rfl)
      rcases g5 with h | rfl | rfl
      · exact k1 h
      · rcases g6 with h | h | h
        · have := hs3 b' h a' (.inl rfl); omega
        · omega
        · rcases g7 with h' | h' | h'
          · have := hs3 c' h' a' (.inl rfl); omega
          · omega
          · omega
      · rcases g6 with h | h | h
        · have := hs3 b' h a' (.inr rfl); omega
        · omega
        · omega
    have hq1 : st.queue.Perm (p :: (X ++ Y)) := hq.trans (by
      rw [List.append_assoc]
      exact List.perm_middle)
    obtain ⟨q, d1, d2⟩ := drop_spec hq1 (fun x hx => by
      rcases List.mem_append.1 hx with hx | hx
      · obtain ⟨a', b', c', g1, g2, g3, g4⟩ := hX1' x hx
        exact Repl.same_of T g1 hp g2 g3 h1 h2 g4.ne
      · obtain ⟨a', b', c', g1, g2, g3, g4⟩ := hY x hx
        exact Repl.same_of T g1 hp g2 g3 h1 h2 (by omega)) (Repl.same_self T hp h1 h2)
    obtain ⟨n, n1, n2, n3, n4⟩ := T.build (hK _ m1) (hK _ m2) hc h1 (h2.trans hbc) hp.left.2 hnew.2
    have n1' : construct val rnd plf kind (st.nodes p).left r.new = .ok n := by
      rw [← n1]
      congr 1
      · rw [← hp.left.1]
      · rw [← hnew.1]
    have hpX : p ∉ X := by
      intro h
      have := hnd
      rw [List.append_assoc, List.nodup_append] at this
      exact this.2.2 p h p (by simp) rfl
    rw [Linked.append] at hl
    obtain ⟨hl1, hl2, -⟩ := hl
    simp only [Option.or_none] at hl2
    have hfX : ∀ x ∈ X, x < st.size := fun x hx => hf x (by simp [hx])
    have hfY : ∀ x ∈ Y, x < st.size := fun x hx => hf x (by simp [hx])
    have hnd' : ((X ++ [st.size]) ++ Y).Nodup := by
      rw [List.append_assoc]
      refine (List.perm_middle (l₁ := X) (l₂ := Y)).nodup_iff.2 (List.nodup_cons.2 ⟨fun h => ?_, ?_⟩)
      · rcases List.mem_append.1 h with h | h
        · exact absurd (hfX _ h) (by omega)
        · exact absurd (hfY _ h) (by omega)
      · exact hnd.sublist (by simp)
    have hfin : ∀ N : ℕ → Repl, (∀ x ∈ X, (N x).left = (st.nodes x).left ∧ (N x).right = (st.nodes x).right ∧
        (N x).new = (st.nodes x).new ∧ (N x).error = (st.nodes x).error) → NodeOk B Er (N st.size) a1 b1 c →
        Linked N none (X ++ [st.size]) none → (∀ y ∈ Y, N y = st.nodes y) →
        addLeft val rnd plf kind r st = .ok (⟨st.result, N, st.size + 1, q ++ [st.size]⟩, some st.size) →
        ∃ st' X', addLeft val rnd plf kind r st = .ok (st', X'.getLast?) ∧ st'.result = st.result ∧
          Nodes B Er st'.nodes (P1 ++ [a1] ++ [b1, c]) X' ∧ Linked st'.nodes none X' none ∧ st'.queue.Perm (X' ++ Y) ∧
          (∀ x ∈ X' ++ Y, x < st'.size) ∧ (X' ++ Y).Nodup ∧ (∀ y ∈ Y, st'.nodes y = st.nodes y) := by
      intro N c1 c2 c3 c4 c5
      refine ⟨⟨st.result, N, st.size + 1, q ++ [st.size]⟩, X ++ [st.size], by rw [c5]; simp, rfl, ?_, c3, ?_, ?_, hnd', c4⟩
      · have := Nodes.join (P := P1) (.cons c2 (.two b1 c)) (hX1.frame c1)
        simpa using this
      · refine (d2.append_right _).trans ?_
        refine List.perm_append_comm.trans ?_
        rw [List.append_assoc]
        exact (List.perm_middle (a := st.size) (l₁ := X) (l₂ := Y)).symm
      · intro x hx
        simp only [List.mem_append, List.mem_singleton] at hx
        simp only
        rcases hx with (hx | hx) | hx
        · have := hfX x hx; omega
        · omega
        · have := hfY x hx; omega
    have hadd : addLeft val rnd plf kind r st = match X.getLast? with
        | none => .ok (⟨st.result, Function.update st.nodes st.size n, st.size + 1, q ++ [st.size]⟩, some st.size)
        | some z => .ok (⟨st.result, Function.update (setNext st.nodes z (some st.size)) st.size { n with prev := some z },
            st.size + 1, q ++ [st.size]⟩, some st.size) := by
      simp only [addLeft, hprev, List.getLast?_append, List.getLast?_singleton, Option.some_or, d1, bind, Except.bind, n1',
        hl2]
      cases X.getLast? <;> rfl
    obtain rfl | ⟨X, z, rfl⟩ : X = [] ∨ ∃ X' z, X = X' ++ [z] := by
      rcases List.eq_nil_or_concat X with h | ⟨X', z, h⟩
      · exact .inl h
      · exact .inr ⟨X', z, by simpa using h⟩
    · refine hfin _ (by simp) ?_ ?_ (fun y hy => ?_) (by rw [hadd]; rfl)
      · simpa using n2
      · simp [Linked, n3, n4]
      · rw [Function.update_of_ne]
        have := hfY y hy; omega
    · have hz : z < st.size := hfX z (by simp)
      refine hfin (Function.update (setNext st.nodes z (some st.size)) st.size { n with prev := some z })
        (fun x hx => ?_) ?_ ?_ (fun y hy => ?_) (by rw [hadd]; simp only [List.getLast?_append, List.getLast?_singleton, Option.some_or])
      · have := hfX x hx
        rw [Function.update_of_ne (by omega)]
        obtain ⟨-, k2, k3, k4, k5, -⟩ := setNext_core st.nodes z (some st.size) x
        exact ⟨k2, k3, k4, k5⟩
      · simpa using (⟨n2.left, n2.right, n2.new, n2.error⟩ : NodeOk B Er { n with prev := some z } a1 b1 c)
      · have hzX : z ∉ X := by
          intro h
          have h2 : (X ++ [z]).Nodup := hnd.sublist (by simp)
          rw [List.nodup_append] at h2
          exact h2.2.2 z h z (by simp) rfl
        have hnext := Linked.setNext (q' := some st.size) hzX hl1
        rw [Linked.append]
        refine ⟨Linked.frame (fun x hx => ?_) hnext, ?_⟩
        · have := hfX x hx
          rw [Function.update_of_ne (by omega)]
          exact ⟨rfl, rfl⟩
        · simp [Linked, n4]
      · have := hfY y hy
        rw [Function.update_of_ne (by omega)]
        unfold setNext
        rw [Function.update_of_ne]
        rintro rfl
        have h2 := hnd
        rw [List.nodup_append] at h2
        exact h2.2.2 y (by simp) y hy rfl

end PF

end Verif.Fun
