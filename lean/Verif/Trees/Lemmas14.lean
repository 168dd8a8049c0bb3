import Verif.Trees.Kmpe

/-!
# Lemmas on merging the solutions of several solvers
-/

namespace Verif.Trees

open HQ (PQ Holds push_holds pop_holds init_holds)

variable {S : Type} [Inhabited S]

/-- All solutions of a candidate's solver from this one on. -/
def Cand.all (c : Cand S) : List (S × ℚ) := c.1 :: c.2

def pushed (l : List (Cand S)) : List (S × ℚ) → List (Cand S)
  | [] => l
  | x :: s => l ++ [(x, s)]

theorem pushNext_holds {q : PQ ℚ (Cand S)} {l : List (Cand S)} (s : List (S × ℚ))
    (h : Holds Cand.key 1 q l) : Holds Cand.key 1 (pushNext q s) (pushed l s) := by
  cases s with
  | nil => exact h
  | cons x s => exact push_holds _ _ (by decide) _ _ _ h

omit [Inhabited S] in
theorem pushed_flat (l : List (Cand S)) (s : List (S × ℚ)) :
    (pushed l s).flatMap Cand.all = l.flatMap Cand.all ++ s := by
  cases s with
  | nil => simp [pushed]
  | cons x s => simp [pushed, Cand.all]

omit [Inhabited S] in
theorem pushed_len (l : List (Cand S)) (s : List (S × ℚ)) :
    ((pushed l s).flatMap Cand.all).length = (l.flatMap Cand.all).length + s.length := by
  rw [pushed_flat, List.length_append]

omit [Inhabited S] in
theorem holds_n {q : PQ ℚ (Cand S)} {l : List (Cand S)} (h : Holds Cand.key 1 q l) : q.n = l.length := by
  obtain ⟨es, h1, -, -, -, h5, -⟩ := h
  have := h5.length_eq
  rw [← h1, List.length_map, ← this]
  simp [PQ.data]

theorem kmpeLoop_spec : ∀ (f count : ℕ) (q : PQ ℚ (Cand S)) (l : List (Cand S)), Holds Cand.key 1 q l →
    (l.flatMap Cand.all).length ≤ f →
    ∃ out, kmpeLoop 0 f count q = .ok out ∧ out.Perm (l.flatMap Cand.all) ∧
      (∀ c ∈ l, c.all.Sublist out) ∧ ∀ x ∈ out.head?, ∀ c ∈ l, x.2 ≤ c.key := by
  intro f
  induction f with
  | zero =>
    intro count q l hl hlen
    cases l with
    | nil =>
      refine ⟨[], ?_, by simp, by simp, by simp⟩
      unfold kmpeLoop
      rw [if_pos (show q.n = 0 from holds_n hl)]
    | cons c l => simp [Cand.all] at hlen
  | succ f ih =>
    intro count q l hl hlen
    rcases pop_holds _ _ (by decide) _ _ hl with ⟨rfl, h1, -⟩ | ⟨pre, x, post, q', rfl, h1, h2, -, h3, h4, h5⟩
    · refine ⟨[], ?_, by simp, by simp, by simp⟩
      unfold kmpeLoop
      rw [if_pos (.inl h1)]
    · have h6 := pushNext_holds x.2 h3
      obtain ⟨out, o1, o2, o3, -⟩ := ih (count + 1) _ _ h6 (by
        rw [pushed_len]
        simp [Cand.all] at hlen ⊢
        omega)
      refine ⟨x.1 :: out, ?_, ?_, ?_, ?_⟩
      · unfold kmpeLoop
        rw [if_neg (by omega), h1]
        simp only [bind, Except.bind, pure, Except.pure, o1]
      · refine (List.Perm.cons _ o2).trans ?_
        rw [pushed_flat]
        simp only [List.flatMap_append, List.flatMap_cons]
        have : x.all = x.1 :: x.2 := rfl
        rw [this]
        refine List.Perm.trans ?_ List.perm_middle.symm
        refine List.Perm.cons _ ?_
        rw [List.append_assoc]
        exact List.Perm.append_left _ List.perm_append_comm
      · intro c hc
        have key : ∀ d ∈ pushed (pre ++ post) x.2, d.all.Sublist (x.1 :: out) :=
          fun d hd => (o3 d hd).trans (List.sublist_cons_self _ _)
        have hsub : ∀ d ∈ pre ++ post, d ∈ pushed (pre ++ post) x.2 := by
          intro d hd
          cases x.2 with
          | nil => exact hd
          | cons y s => exact List.mem_append_left _ hd
        simp only [List.mem_append, List.mem_cons] at hc
        rcases hc with hc | rfl | hc
        · exact key _ (hsub _ (List.mem_append_left _ hc))
        · show (c.1 :: c.2).Sublist _
          refine List.Sublist.cons_cons _ ?_
          cases hs : c.2 with
          | nil => exact List.nil_sublist _
          | cons y s =>
            rw [hs] at o3
            exact o3 (y, s) (by simp [pushed])
        · exact key _ (hsub _ (List.mem_append_right _ hc))
      · intro y hy c hc
        simp only [List.head?_cons, Option.mem_some_iff] at hy
        subst hy
        show x.key ≤ c.key
        simp only [List.mem_append, List.mem_cons] at hc
        rcases hc with hc | rfl | hc
        · have := h4 c hc
          simp only [Int.zero_lt_one, decide_true, if_true] at this
          exact this.le
        · exact le_refl _
        · have := h5 c hc
          simpa using this

/-- A limit of `k` keeps the first `k` results. -/
theorem kmpeLoop_take (k : ℕ) (hk : k ≠ 0) : ∀ (f count : ℕ) (q : PQ ℚ (Cand S)) (l : List (Cand S)),
    Holds Cand.key 1 q l → (l.flatMap Cand.all).length ≤ f → ∀ out, kmpeLoop 0 f 0 q = .ok out →
    kmpeLoop k f count q = .ok (out.take (k - count)) := by
  have hcount : ∀ (f a b : ℕ) (q : PQ ℚ (Cand S)), kmpeLoop 0 f a q = kmpeLoop 0 f b q := by
    intro f
    induction f with
    | zero => intro a b q; rfl
    | succ f ih =>
      intro a b q
      unfold kmpeLoop
      simp only [ne_eq, not_true_eq_false, false_and, or_false]
      split
      · rfl
      · congr 1
        funext r
        rw [ih (a + 1) (b + 1)]
  intro f
  induction f with
  | zero =>
    intro count q l hl hlen out ho
    unfold kmpeLoop at ho ⊢
    by_cases h : q.n = 0
    · rw [if_pos h] at ho ⊢
      injection ho with ho
      rw [← ho]
      simp
    · rw [if_neg h] at ho
      cases ho
  | succ f ih =>
    intro count q l hl hlen out ho
    rcases pop_holds _ _ (by decide) _ _ hl with ⟨rfl, h1, -⟩ | ⟨pre, x, post, q', rfl, h1, h2, -, h3, h4, h5⟩
    · unfold kmpeLoop at ho ⊢
      rw [if_pos (.inl h1)] at ho ⊢
      injection ho with ho
      rw [← ho]
      simp
    · have h6 := pushNext_holds x.2 h3
      have hle : ((pushed (pre ++ post) x.2).flatMap Cand.all).length ≤ f := by
        rw [pushed_len]
        simp [Cand.all] at hlen ⊢
        omega
      obtain ⟨o', p1, -⟩ := kmpeLoop_spec f 0 _ _ h6 hle
      unfold kmpeLoop at ho
      rw [if_neg (by omega), h1] at ho
      simp only [bind, Except.bind, pure, Except.pure] at ho
      rw [hcount f 1 0, p1] at ho
      injection ho with ho
      unfold kmpeLoop
      by_cases hc : k ≤ count
      · rw [if_pos (.inr ⟨hk, hc⟩)]
        have : k - count = 0 := by omega
        rw [this]
        rfl
      · rw [if_neg (by omega), h1]
        simp only [bind, Except.bind, pure, Except.pure]
        rw [ih (count + 1) _ _ h6 hle o' p1]
        have : k - count = k - (count + 1) + 1 := by omega
        rw [← ho, this]
        rfl

omit [Inhabited S] in
theorem firsts_ok : ∀ (ss : List (List (S × ℚ))), (∀ s ∈ ss, s ≠ []) →
    ∃ cs : List (Cand S), ss.mapM firstOf = .ok cs ∧ cs.map Cand.all = ss := by
  intro ss
  induction ss with
  | nil => intro _; exact ⟨[], rfl, rfl⟩
  | cons s ss ih =>
    intro h
    obtain ⟨cs, h1, h2⟩ := ih (fun t ht => h t (List.mem_cons_of_mem _ ht))
    cases s with
    | nil => exact absurd rfl (h [] List.mem_cons_self)
    | cons x s =>
      refine ⟨(x, s) :: cs, ?_, by simp [h2, Cand.all]⟩
      rw [List.mapM_cons, h1]
      rfl

theorem mergeSolvers_spec (ss : List (List (S × ℚ))) (hss : ∀ s ∈ ss, s ≠ []) :
    ∃ out, mergeSolvers 0 ss = .ok out ∧ out.Perm ss.flatten ∧ (∀ s ∈ ss, s.Sublist out) ∧
      (∀ x ∈ out.head?, ∀ s ∈ ss, ∀ y ∈ s.head?, x.2 ≤ y.2) ∧
      ∀ k, k ≠ 0 → mergeSolvers k ss = .ok (out.take k) := by
  obtain ⟨cs, h1, h2⟩ := firsts_ok ss hss
  have hh := init_holds (Cand.key (S := S)) 1 (by decide) cs
  have hflat : cs.flatMap Cand.all = ss.flatten := by rw [← h2, List.flatMap_def]
  have hlen : (cs.flatMap Cand.all).length ≤ (ss.map List.length).sum := by
    rw [hflat, List.length_flatten]
  obtain ⟨out, o1, o2, o3, o4⟩ := kmpeLoop_spec _ 0 _ _ hh hlen
  refine ⟨out, ?_, by rw [← hflat]; exact o2, ?_, ?_, ?_⟩
  · unfold mergeSolvers
    rw [h1]
    exact o1
  · intro s hs
    rw [← h2] at hs
    obtain ⟨c, hc, rfl⟩ := List.mem_map.1 hs
    exact o3 c hc
  · intro x hx s hs y hy
    rw [← h2] at hs
    obtain ⟨c, hc, rfl⟩ := List.mem_map.1 hs
    simp only [Cand.all, List.head?_cons, Option.mem_some_iff] at hy
    rw [← hy]
    exact o4 x hx c hc
  · intro k hk
    unfold mergeSolvers
    rw [h1]
    exact kmpeLoop_take k hk _ 0 _ _ hh hlen out o1

end Verif.Trees
