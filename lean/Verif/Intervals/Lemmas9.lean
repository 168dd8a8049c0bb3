import Verif.Intervals.Lemmas8

/-! # RealSet intersection -/

namespace Verif.Iv
open FP

theorem CS.intersection_reg {s o c : CS} (hs : s.Reg) (ho : o.Reg) (h : s.intersection o = .ok c) :
    c.Reg := by
  unfold CS.intersection at h
  split at h
  · simp only [Except.ok.injEq] at h; subst h; decide
  · simp only [CS.mk?, bind, Except.bind] at h
    split at h
    · cases h
    · rename_i v hv
      split at hv
      · cases hv
      · simp only [Except.ok.injEq] at h hv
        subst hv h
        obtain ⟨l, u, a, b⟩ := s
        obtain ⟨l', u', a', b'⟩ := o
        have := ninf_le l; have := ninf_le l'; have := le_pinf u; have := le_pinf u'
        revert hs ho
        cases a <;> cases b <;> cases a' <;> cases b' <;>
          simp only [CS.Reg, Br.max, Br.code] <;> grind

namespace RS

/-- The pairs of `RealSet.intersection`, in the order in which they are visited. -/
def pairs (l o : List CS) : List (CS × CS) := l.flatMap (fun i => o.map (fun j => (i, j)))

theorem mem_pairs {l o : List CS} {p : CS × CS} : p ∈ pairs l o ↔ p.1 ∈ l ∧ p.2 ∈ o := by
  obtain ⟨a, b⟩ := p
  simp [pairs]

theorem pairs_pairwise {o : List CS} : ∀ {l : List CS}, l.Pairwise Before → o.Pairwise Before →
    (pairs l o).Pairwise (fun p q => Before p.1 q.1 ∨ Before p.2 q.2)
  | [], _, _ => by simp [pairs]
  | i :: l, hl, ho => by
    obtain ⟨h1, h2⟩ := List.pairwise_cons.1 hl
    rw [pairs, List.flatMap_cons, List.pairwise_append]
    refine ⟨?_, pairs_pairwise h2 ho, ?_⟩
    · rw [List.pairwise_map]
      exact ho.imp (fun h => .inr h)
    · intro p hp q hq
      obtain ⟨j, _, rfl⟩ := List.mem_map.1 hp
      exact .inl (h1 _ (mem_pairs.1 hq).1)

theorem forall₂_pairwise {α β : Type} {R : α → β → Prop} {P : α → α → Prop} {Q : β → β → Prop}
    (h : ∀ a a' b b', R a b → R a' b' → P a a' → Q b b') :
    ∀ {l : List α} {r : List β}, List.Forall₂ R l r → l.Pairwise P → r.Pairwise Q
  | [], _, .nil, _ => by simp
  | a :: l, b :: r, .cons h1 h2, hp => by
    obtain ⟨hp1, hp2⟩ := List.pairwise_cons.1 hp
    rw [List.pairwise_cons]
    refine ⟨fun b' hb' => ?_, forall₂_pairwise h h2 hp2⟩
    obtain ⟨a', ha', hr⟩ := forall₂_mem_right h2 hb'
    exact h a a' b b' h1 hr (hp1 a' ha')

theorem forall₂_mem_left {α β : Type} {R : α → β → Prop} {l : List α} {r : List β}
    (h : List.Forall₂ R l r) {a : α} (ha : a ∈ l) : ∃ b ∈ r, R a b := by
  induction h with
  | nil => simp at ha
  | cons h1 _ ih =>
    rcases List.mem_cons.1 ha with rfl | ha
    · exact ⟨_, by simp, h1⟩
    · obtain ⟨b, hb, h⟩ := ih ha
      exact ⟨b, by simp [hb], h⟩

/-- The list of intersections handed to `simplify`. -/
theorem inter_list {l o : List CS} (hl : ∀ s ∈ l, Good s) (ho : ∀ s ∈ o, Good s) :
    ∃ r, (l.flatMap (fun i => o.map (fun j => (i, j)))).mapM (fun p => p.2.intersection p.1) = .ok r ∧
      (∀ s ∈ r, Good s) ∧ (∀ x, RS.Mem r x ↔ RS.Mem l x ∧ RS.Mem o x) ∧
      (l.Pairwise Before → o.Pairwise Before → r.Pairwise Before) := by
  have : ∃ r, (pairs l o).mapM (fun p => p.2.intersection p.1) = .ok r := by
    cases hm : (pairs l o).mapM (fun p => p.2.intersection p.1) with
    | ok r => exact ⟨r, rfl⟩
    | error e =>
      obtain ⟨p, hp, he⟩ := mapM_error _ _ _ hm
      have hp' := mem_pairs.1 hp
      obtain ⟨c, hc, -⟩ := CS.intersection_ok p.2 p.1 (ho _ hp'.2).1 (hl _ hp'.1).1
      rw [hc] at he; cases he
  obtain ⟨r, hr⟩ := this
  have hf := (mapM_ok_iff _ _ _).1 hr
  have hm : ∀ p ∈ pairs l o, ∀ c, p.2.intersection p.1 = .ok c → Good c ∧
      ∀ x, c.Mem x ↔ p.1.Mem x ∧ p.2.Mem x := by
    intro p hp c hc
    have hp' := mem_pairs.1 hp
    obtain ⟨c', hc', h1, h2⟩ := CS.intersection_ok p.2 p.1 (ho _ hp'.2).1 (hl _ hp'.1).1
    rw [hc] at hc'
    cases hc'
    exact ⟨⟨h1, CS.intersection_reg (ho _ hp'.2).2 (hl _ hp'.1).2 hc⟩, fun x => by rw [h2 x, and_comm]⟩
  refine ⟨r, hr, ?_, ?_, ?_⟩
  · intro s hs
    obtain ⟨p, hp, hc⟩ := forall₂_mem_right hf hs
    exact (hm p hp s hc).1
  · intro x
    constructor
    · rintro ⟨s, hs, hx⟩
      obtain ⟨p, hp, hc⟩ := forall₂_mem_right hf hs
      have := ((hm p hp s hc).2 x).1 hx
      have hp' := mem_pairs.1 hp
      exact ⟨⟨_, hp'.1, this.1⟩, ⟨_, hp'.2, this.2⟩⟩
    · rintro ⟨⟨i, hi, hxi⟩, ⟨j, hj, hxj⟩⟩
      have hp : (i, j) ∈ pairs l o := mem_pairs.2 ⟨hi, hj⟩
      obtain ⟨c, hc, hc'⟩ := forall₂_mem_left hf hp
      exact ⟨c, hc, ((hm _ hp c hc').2 x).2 ⟨hxi, hxj⟩⟩
  · intro h1 h2
    have hpp := pairs_pairwise h1 h2
    have hf' : List.Forall₂ (fun (p : CS × CS) c => ∀ x, c.Mem x → p.1.Mem x ∧ p.2.Mem x)
        (pairs l o) r := by
      have : List.Forall₂ (fun (p : CS × CS) c => p ∈ pairs l o ∧ p.2.intersection p.1 = .ok c)
          (pairs l o) r := by
        have aux : ∀ {l' : List (CS × CS)} {r' : List CS}, (∀ p ∈ l', p ∈ pairs l o) →
            List.Forall₂ (fun (p : CS × CS) c => p.2.intersection p.1 = .ok c) l' r' →
            List.Forall₂ (fun (p : CS × CS) c => p ∈ pairs l o ∧ p.2.intersection p.1 = .ok c) l' r' := by
          intro l' r' hsub h
          induction h with
          | nil => exact .nil
          | cons h1 _ ih => exact .cons ⟨hsub _ (by simp), h1⟩ (ih fun p hp => hsub p (by simp [hp]))
        exact aux (fun _ h => h) hf
      exact this.imp (fun p c h x hx => ((hm p h.1 c h.2).2 x).1 hx)
    refine forall₂_pairwise ?_ hf' hpp
    intro p q c c' hc hc' h x y hx hy
    rcases h with h | h
    · exact h x y (hc x hx).1 (hc' y hy).1
    · exact h x y (hc x hx).2 (hc' y hy).2

theorem isChain_and {α : Type} {R S : α → α → Prop} : ∀ {l : List α}, l.IsChain R → l.Pairwise S →
    l.IsChain (fun a b => R a b ∧ S a b)
  | [], _, _ => .nil
  | [_], _, _ => .singleton _
  | a :: b :: l, h1, h2 => by
    rw [List.isChain_cons_cons] at h1
    rw [List.pairwise_cons] at h2
    exact List.isChain_cons_cons.2 ⟨⟨h1.1, h2.1 b (by simp)⟩, isChain_and h1.2 h2.2⟩

end RS
end Verif.Iv
