import Verif.Functions.ApproxLemmas3

/-!
# The loop of the approximation
-/

namespace Verif.Fun

open Iv Iv.FP

namespace PF

variable {val : ℤ → ℚ} {rnd : ℚ → ℤ} {plf : PF} {kind : By} {f0 : Fn} {K : List ℤ} {B : ℤ → ℤ → Fn → Prop}
  {Er : ℤ → ℤ → ℚ → Prop} {nodes : ℕ → Repl}

theorem addRight_spec (T : Theory val rnd plf kind f0 K B Er) {st : Approx} {r : Repl} {Q : List ℤ} {a b c : ℤ}
    {X Y : List ℕ} {w : Option ℕ} (hY : Nodes B Er st.nodes (b :: c :: Q) Y) (hl : Linked st.nodes w Y none)
    (hnext : r.next = Y.head?) (hnew : r.new.i = co a c ∧ B a c r.new.f) (hs : (b :: c :: Q).Pairwise (· < ·))
    (hab : a < b) (hK : ∀ k ∈ b :: c :: Q, k ∈ K) (ha : a ∈ K) (hq : st.queue.Perm (X ++ Y)) (hnd : (X ++ Y).Nodup)
    (hf : ∀ x ∈ X ++ Y, x < st.size)
    (hX : ∀ x ∈ X, ∃ a' b' c', NodeOk B Er (st.nodes x) a' b' c' ∧ a' < b' ∧ b' < c' ∧ a' < b) :
    ∃ st' Y', addRight val rnd plf kind r st = .ok (st', Y'.head?) ∧ st'.result = st.result ∧
      Nodes B Er st'.nodes (a :: c :: Q) Y' ∧ Linked st'.nodes none Y' none ∧ st'.queue.Perm (X ++ Y') ∧
      (∀ x ∈ X ++ Y', x < st'.size) ∧ (X ++ Y').Nodup ∧ (∀ x ∈ X, st'.nodes x = st.nodes x) := by
  cases hY with
  | two =>
    exact ⟨st, [], by simp [addRight, hnext], rfl, .two a c, trivial, hq, hf, hnd, fun _ _ => rfl⟩
  | @cons _ _ d Q p Y hp hY1 =>
    obtain ⟨h1, h2, m1, m2, m3⟩ := sorted_three (a := b) (b := c) (c := d) (by simp) hs
    have hY1' : ∀ x ∈ Y, ∃ a' b' c', NodeOk B Er (st.nodes x) a' b' c' ∧ a' < b' ∧ b' < c' ∧ b < a' := by
      intro x hx
      obtain ⟨a', b', c', g1, g2⟩ := hY1.mem x hx
      obtain ⟨g3, g4, g5, g6, g7⟩ := sorted_three g2 (List.pairwise_cons.1 hs).2
      exact ⟨a', b', c', g1, g3, g4, (List.pairwise_cons.1 hs).1 _ g5⟩
    have hq1 : st.queue.Perm (p :: (X ++ Y)) := hq.trans List.perm_middle
    obtain ⟨q, d1, d2⟩ := drop_spec hq1 (fun x hx => by
      rcases List.mem_append.1 hx with hx | hx
      · obtain ⟨a', b', c', g1, g2, g3, g4⟩ := hX x hx
        exact Repl.same_of T g1 hp g2 g3 h1 h2 g4.ne
      · obtain ⟨a', b', c', g1, g2, g3, g4⟩ := hY1' x hx
        exact Repl.same_of T g1 hp g2 g3 h1 h2 (by omega)) (Repl.same_self T hp h1 h2)
    obtain ⟨n, n1, n2, n3, n4⟩ := T.build ha (hK _ m2) (hK _ m3) (hab.trans h1) h2 hnew.2 hp.right.2
    have n1' : construct val rnd plf kind r.new (st.nodes p).right = .ok n := by
      rw [← n1]
      congr 1
      · rw [← hnew.1]
      · rw [← hp.right.1]
    obtain ⟨-, hl2, hl1⟩ := hl
    simp only [Option.or_none] at hl2
    have hfX : ∀ x ∈ X, x < st.size := fun x hx => hf x (by simp [hx])
    have hfY : ∀ x ∈ Y, x < st.size := fun x hx => hf x (by simp [hx])
    have hnd1 : (X ++ Y).Nodup := hnd.sublist (by simp)
    have hnd' : (X ++ st.size :: Y).Nodup := by
      refine (List.perm_middle (l₁ := X) (l₂ := Y)).nodup_iff.2 (List.nodup_cons.2 ⟨fun h => ?_, hnd1⟩)
      rcases List.mem_append.1 h with h | h
      · exact absurd (hfX _ h) (by omega)
      · exact absurd (hfY _ h) (by omega)
    have hfin : ∀ N : ℕ → Repl, (∀ x ∈ Y, (N x).left = (st.nodes x).left ∧ (N x).right = (st.nodes x).right ∧
        (N x).new = (st.nodes x).new ∧ (N x).error = (st.nodes x).error) → NodeOk B Er (N st.size) a c d →
        Linked N none (st.size :: Y) none → (∀ y ∈ X, N y = st.nodes y) →
        addRight val rnd plf kind r st = .ok (⟨st.result, N, st.size + 1, q ++ [st.size]⟩, some st.size) →
        ∃ st' Y', addRight val rnd plf kind r st = .ok (st', Y'.head?) ∧ st'.result = st.result ∧
          Nodes B Er st'.nodes (a :: c :: d :: Q) Y' ∧ Linked st'.nodes none Y' none ∧ st'.queue.Perm (X ++ Y') ∧
          (∀ x ∈ X ++ Y', x < st'.size) ∧ (X ++ Y').Nodup ∧ (∀ x ∈ X, st'.nodes x = st.nodes x) := by
      intro N c1 c2 c3 c4 c5
      refine ⟨⟨st.result, N, st.size + 1, q ++ [st.size]⟩, st.size :: Y, by rw [c5]; simp, rfl, .cons c2 (hY1.frame c1),
        c3, ?_, ?_, hnd', c4⟩
      · refine (d2.append_right _).trans ?_
        refine List.perm_append_comm.trans ?_
        exact (List.perm_middle (a := st.size) (l₁ := X) (l₂ := Y)).symm
      · intro x hx
        simp only [List.mem_append, List.mem_cons] at hx
        simp only
        rcases hx with hx | hx | hx
        · have := hfX x hx; omega
        · omega
        · have := hfY x hx; omega
    have hadd : addRight val rnd plf kind r st = match Y.head? with
        | none => .ok (⟨st.result, Function.update st.nodes st.size n, st.size + 1, q ++ [st.size]⟩, some st.size)
        | some z => .ok (⟨st.result, Function.update (setPrev st.nodes z (some st.size)) st.size { n with next := some z },
            st.size + 1, q ++ [st.size]⟩, some st.size) := by
      simp only [addRight, hnext, List.head?_cons, d1, bind, Except.bind, n1', hl2]
      cases Y.head? <;> rfl
    cases Y with
    | nil =>
      refine hfin _ (by simp) ?_ ?_ (fun y hy => ?_) (by rw [hadd]; rfl)
      · simpa using n2
      · simp [Linked, n3, n4]
      · rw [Function.update_of_ne]
        have := hfX y hy; omega
    | cons z Y =>
      have hz : z < st.size := hfY z (by simp)
      have hzY : z ∉ Y := by
        have h2 : (z :: Y).Nodup := hnd1.sublist (by simp)
        exact (List.nodup_cons.1 h2).1
      refine hfin (Function.update (setPrev st.nodes z (some st.size)) st.size { n with next := some z })
        (fun x hx => ?_) ?_ ?_ (fun y hy => ?_) (by rw [hadd]; rfl)
      · have := hfY x hx
        rw [Function.update_of_ne (by omega)]
        obtain ⟨-, k2, k3, k4, k5, -⟩ := setPrev_core st.nodes z (some st.size) x
        exact ⟨k2, k3, k4, k5⟩
      · simpa using (⟨n2.left, n2.right, n2.new, n2.error⟩ : NodeOk B Er { n with next := some z } a c d)
      · have hprev := Linked.setPrev (p' := some st.size) hzY hl1
        refine ⟨by simp [n3], by simp, Linked.frame (fun x hx => ?_) hprev⟩
        have := hfY x hx
        rw [Function.update_of_ne (by omega)]
        exact ⟨rfl, rfl⟩
      · have := hfX y hy
        rw [Function.update_of_ne (by omega)]
        unfold setPrev
        rw [Function.update_of_ne]
        rintro rfl
        have h2 := hnd1
        rw [List.nodup_append] at h2
        exact h2.2.2 y hy y (by simp) rfl

/-- Linking the two new replacements. -/
theorem link_spec {st : Approx} {X Y : List ℕ} (hX : Linked st.nodes none X none) (hY : Linked st.nodes none Y none)
    (hnd : (X ++ Y).Nodup) :
    ∃ N : ℕ → Repl, link st X.getLast? Y.head? = { st with nodes := N } ∧ Linked N none (X ++ Y) none ∧
      ∀ i, (N i).left = (st.nodes i).left ∧ (N i).right = (st.nodes i).right ∧ (N i).new = (st.nodes i).new ∧
        (N i).error = (st.nodes i).error := by
  obtain rfl | ⟨X, l, rfl⟩ : X = [] ∨ ∃ X' z, X = X' ++ [z] := by
    rcases List.eq_nil_or_concat X with h | ⟨X', z, h⟩
    · exact .inl h
    · exact .inr ⟨X', z, by simpa using h⟩
  · exact ⟨st.nodes, rfl, hY, by simp⟩
  cases Y with
  | nil =>
    refine ⟨st.nodes, by simp [link], by simpa using hX, by simp⟩
  | cons r Y =>
    refine ⟨setPrev (setNext st.nodes l (some r)) r (some l), by simp [link], ?_, fun i => ?_⟩
    · have h1 := hnd
      rw [List.nodup_append] at h1
      obtain ⟨n1, n2, n3⟩ := h1
      rw [Linked.append]
      constructor
      · have hlX : l ∉ X := by
          rw [List.nodup_append] at n1
          intro h
          exact n1.2.2 l h l (by simp) rfl
        refine Linked.frame (fun j hj => ?_) (Linked.setNext (q' := some r) hlX hX)
        obtain ⟨e1, -, -, -, -, e2⟩ := setPrev_core (setNext st.nodes l (some r)) r (some l) j
        refine ⟨?_, e1⟩
        rw [e2, if_neg]
        exact n3 j hj r (by simp)
      · have hf : Linked (setNext st.nodes l (some r)) none (r :: Y) none := by
          refine Linked.frame (fun j hj => ?_) hY
          obtain ⟨e1, -, -, -, -, e2⟩ := setNext_core st.nodes l (some r) j
          refine ⟨e1, ?_⟩
          rw [e2, if_neg]
          exact fun h => n3 l (by simp) j hj h.symm
        simpa using Linked.setPrev (p' := some l) (List.nodup_cons.1 n2).1 hf
    · obtain ⟨-, e2, e3, e4, e5, -⟩ := setPrev_core (setNext st.nodes l (some r)) r (some l) i
      obtain ⟨-, f2, f3, f4, f5, -⟩ := setNext_core st.nodes l (some r) i
      exact ⟨e2.trans f2, e3.trans f3, e4.trans f4, e5.trans f5⟩

/-! ### The invariant -/

/-- `a` and `b` are neighbours in `K`, or the error between them is at most `emax`. -/
def Fine (K : List ℤ) (Er : ℤ → ℤ → ℚ → Prop) (emax : Option ℚ) (a b : ℤ) : Prop :=
  (∃ P Q, K = P ++ a :: b :: Q) ∨ ∃ e, Er a b e ∧ ∀ m, emax = some m → e ≤ m

structure Inv (B : ℤ → ℤ → Fn → Prop) (Er : ℤ → ℤ → ℚ → Prop) (f0 fl : Fn) (K : List ℤ) (emax : Option ℚ) (st : Approx)
    (ks : List ℤ) (ord : List ℕ) : Prop where
  sub : ks.Sublist K
  ends : ks.head? = K.head? ∧ ks.getLast? = K.getLast?
  fine : ks.IsChain (Fine K Er emax)
  res : Framed B f0 fl ks st.result
  nodes : Nodes B Er st.nodes ks ord
  linked : Linked st.nodes none ord none
  perm : st.queue.Perm ord
  nodup : ord.Nodup
  fresh : ∀ j ∈ ord, j < st.size

end PF

end Verif.Fun
