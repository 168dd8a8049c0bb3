import Verif.Trees.Props
import Verif.Trees.Lemmas7
import Verif.Trees.Lemmas8
import Verif.Trees.Lemmas9

/-!
# Properties of derived trees and of `mpe`: C47, C48, C53
-/

namespace Verif.Trees

open Learn (Cfg Data learn DataOK fullOf exists_ok)

variable {D E K : Type} {o : DistOps D E} {ok : K → D → Prop} {fits : K → Region → Prop}
  {P : D → Region → ℚ} {kind : ℕ → K} {full : ℕ → Region} {n : ℕ} {h : Heap D}

/-! ## C47: `conditional_jpt` -/

/-- The copy that conditioning starts with changes nothing. -/
theorem conditional_copied (hr : ∀ k d, ok k d → o.reload d = .ok d) (hT : TreeOK ok fits P kind full n h) (hsort : Sorted h)
    (priors : List (ℕ × D)) (hp : ∀ b ∈ priors, o.reload b.2 = .ok b.2) (e : Query) :
    conditional o n full h priors e = conditionalOf o n full h priors e := by
  have h1 : copy o h = .ok h := by
    apply copy_eq hT.shape hT.noNone hsort
    intro l hl d hd
    obtain ⟨v, hv⟩ := List.getElem?_of_mem hd
    exact hr _ _ ((hT.dists l hl).2 v d hv)
  have h2 : copyPriors o priors = .ok priors := by
    unfold copyPriors mapVals
    rw [mapM_ok (g := fun b => b)]
    · rw [List.map_id']
    · intro b hb
      rw [hp b hb]
      rfl
  unfold conditional
  rw [h1, h2]
  rfl

theorem conditional_of (L : Laws o ok fits P) (hT : TreeOK ok fits P kind full n h) (hsort : Sorted h)
    (priors : List (ℕ × D)) (hp : ∀ b ∈ priors, ∃ k, ok k b.2) (e : Query) :
    conditional o n full h priors e = conditionalOf o n full h priors e :=
  conditional_copied L.reload hT hsort priors (fun b hb => by
    obtain ⟨k, hk⟩ := hp b hb
    exact L.reload k _ hk) e

/-- A query restricted by the evidence is at most as probable as the evidence. -/
theorem leafProb_meet_zero (L : PLaws o ok fits P) {l : Leaf D}
    (hok : ∀ (v : ℕ) (d : D), l.dists[v]? = some d → ok (kind v) d) {q e : Query}
    (hq : QueryOK fits kind n q) (he : QueryOK fits kind n e) (h0 : leafProb P l e = 0) :
    leafProb P l (meet q e) = 0 := by
  have h1 : ∃ i ∈ e, (match l.dists[i.1]? with
    | some d => P d i.2
    | none => 0) = 0 := by
    by_contra hc
    have hpos : leafProb P l e ≠ 0 := by
      unfold leafProb
      intro hz
      rw [List.prod_eq_zero_iff, List.mem_map] at hz
      obtain ⟨i, hi, hz⟩ := hz
      exact hc ⟨i, hi, hz⟩
    exact hpos h0
  obtain ⟨i, hi, hz⟩ := h1
  unfold leafProb
  apply prod_zero
  rw [List.mem_map]
  unfold meet
  by_cases hmem : i.1 ∈ q.map Prod.fst
  · obtain ⟨j, hj, hij⟩ := List.mem_map.1 hmem
    refine ⟨meetItem e j, List.mem_append_left _ (List.mem_map_of_mem hj), ?_⟩
    have hlk : e.lookup j.1 = some i.2 := by
      rw [hij]
      exact Dict.mem_lookup he.1 hi
    simp only [meetItem, hlk]
    rw [hij]
    cases hd : l.dists[i.1]? with
    | none => rfl
    | some d =>
      rw [hd] at hz
      simp only at hz ⊢
      have hfj : fits (kind i.1) j.2 := by rw [← hij]; exact (hq.2 j hj).2.1
      have hfi := (he.2 i hi).2.1
      have hin := L.inter _ _ _ hfj hfi
      apply le_antisymm
      · rw [← hz]
        exact L.mono _ d _ _ (hok _ d hd) hin hfi (fun x hx => ((Region.mem_inter x).1 hx).2)
      · exact L.nonneg _ d _ (hok _ d hd) hin
  · refine ⟨i, List.mem_append_right _ (List.mem_filter.2 ⟨hi, by simpa using hmem⟩), hz⟩

/-- The probabilities of the new tree. -/
theorem mass_cond (L : PLaws o ok fits P) (hT : TreeOK ok fits P kind full n h) {q e : Query}
    (hq : QueryOK fits kind n q) (he : QueryOK fits kind n e) (hm : mass P h e ≠ 0) {ls : List (ℕ × Leaf D)}
    (hc : List.Forall₂ (Conditioned fits P kind n e (mass P h e))
        (h.leaves.filter (fun l => decide (0 < leafProb P l.2 e))) ls) :
    (ls.map (fun l => l.2.prior * leafProb P l.2 q)).sum = mass P h (meet q e) / mass P h e := by
  have h1 : mass P h (meet q e) = ((h.leaves.filter (fun l => decide (0 < leafProb P l.2 e))).map
      (fun l => l.2.prior * leafProb P l.2 (meet q e))).sum := by
    unfold mass
    symm
    apply sum_filter (fun l : ℕ × Leaf D => decide (0 < leafProb P l.2 e))
      (fun l : ℕ × Leaf D => l.2.prior * leafProb P l.2 (meet q e))
    intro l hl hp
    have hz : leafProb P l.2 e = 0 := by
      apply le_antisymm
      · simpa using hp
      · exact leafProb_nonneg L (hT.dists l hl).2 (fun i hi => (he.2 i hi).2.1)
    rw [leafProb_meet_zero L (hT.dists l hl).2 hq he hz, mul_zero]
  rw [h1, eq_div_iff hm]
  have hall : ∀ l ∈ h.leaves.filter (fun l => decide (0 < leafProb P l.2 e)),
      l ∈ h.leaves ∧ 0 < leafProb P l.2 e := by
    intro l hl
    simpa using hl
  clear h1
  obtain ⟨A, hA⟩ : ∃ A, A = h.leaves.filter (fun l => decide (0 < leafProb P l.2 e)) := ⟨_, rfl⟩
  rw [← hA] at hc hall ⊢
  clear hA
  induction hc with
  | nil => simp
  | @cons l l' A ls hl _ ih =>
    simp only [List.map_cons, List.sum_cons]
    rw [add_mul, ih (fun l hl => hall l (List.mem_cons_of_mem _ hl))]
    congr 1
    obtain ⟨hm1, hm2⟩ := hall l List.mem_cons_self
    rw [← leafProb_cond (hT.dists l hm1).1 hm2.ne' he.1 hq rfl hl.dists, hl.prior]
    field_simp

/-- `conditional_jpt`: it fails exactly if the evidence has probability zero.  Otherwise the leaves are
those the evidence can reach, each with prior (prior times likelihood) over the mass and the
distributions conditioned on the evidence; the priors sum to one; the priors of the variables and all
answers of the new tree are the probabilities given the evidence.  Missing: evidence at a single
number, and trees that were conditioned before (`C47_violated_twice`). -/
theorem C47_conditional_partial (L : Laws o ok fits P) (hT : TreeOK ok fits P kind full n h)
    (hbin : Binary h) (hsort : Sorted h) (priors : List (ℕ × D)) (hp : ∀ b ∈ priors, ∃ k, ok k b.2)
    {e : Query} (he : QueryOK fits kind n e) (hne : e ≠ []) (hpt : ∀ i ∈ e, i.2.point = none) :
    (mass P h e = 0 → conditional o n full h priors e = .error .unsatisfiable) ∧
    (mass P h e ≠ 0 → ∃ h' ps, conditional o n full h priors e = .ok (h', ps) ∧
      TreeOK ok fits P kind full n h' ∧
      List.Forall₂ (Conditioned fits P kind n e (mass P h e))
        (h.leaves.filter (fun l => decide (0 < leafProb P l.2 e))) h'.leaves ∧
      (h'.leaves.map (fun l => l.2.prior)).sum = 1 ∧
      List.Forall₂ (fun v b => b.1 = v ∧ ok (kind v) b.2 ∧ ∀ S, fits (kind v) S → S.OK →
        P b.2 S = mass P h (meet [(v, S)] e) / mass P h e) (List.range n) ps ∧
      ∀ q, QueryOK fits kind n q → ∀ fail,
        infer o n full h' q [] fail = .ok (some (mass P h (meet q e) / mass P h e))) := by
  rw [conditional_of L hT hsort priors hp]
  obtain ⟨h1, h2⟩ := conditionalOf_eq L hT hbin priors he hne hpt
  refine ⟨h1, fun hm => ?_⟩
  obtain ⟨h', ps, h3, h4, h5, h6⟩ := h2 hm
  have hmass : ∀ q, QueryOK fits kind n q → mass P h' q = mass P h (meet q e) / mass P h e :=
    fun q hq => mass_cond L.toPLaws hT hq he hm h5
  have hone : (h'.leaves.map (fun l => l.2.prior)).sum = 1 := by
    have := hmass [] ⟨by simp, by simp⟩
    have h7 : meet [] e = e := by simp [meet]
    rw [h7, div_self hm] at this
    rw [← this]
    unfold mass leafProb
    simp
  refine ⟨h', ps, h3, h4, h5, hone, ?_, ?_⟩
  · refine (forall₂_mem h6).imp ?_
    rintro v b ⟨⟨h7, h8, h9⟩, hv⟩
    refine ⟨h7, h8, fun S hS hSO => ?_⟩
    rw [h9 S hS, ← hmass [(v, S)] ⟨by simp, by
      intro i hi
      rw [List.mem_singleton] at hi
      subst hi
      exact ⟨List.mem_range.1 hv, hS, hSO⟩⟩]
    unfold mass leafProb condProb
    congr 1
    apply List.map_congr_left
    intro l _
    simp only [List.map_cons, List.map_nil, List.prod_cons, List.prod_nil, mul_one, List.lookup_nil]
    cases l.2.dists[v]? <;> rfl
  · intro q hq fail
    rw [C45_infer_prior L h4 hq fail hone, hmass q hq]

/-- Without evidence, the tree is copied. -/
theorem C47_empty (L : Laws o ok fits P) (hT : TreeOK ok fits P kind full n h) (hsort : Sorted h)
    (priors : List (ℕ × D)) (hp : ∀ b ∈ priors, ∃ k, ok k b.2) :
    conditional o n full h priors [] = .ok (h, priors) := by
  rw [conditional_of L hT hsort priors hp]
  rfl

/-- The new tree answers like `infer` on the old one with the evidence, where variables in both are
certain within the leaves.  Missing: other common variables (`C47_violated_infer`), and what
`C47_conditional_partial` lacks. -/
theorem C47_infer_partial (L : Laws o ok fits P) (hT : TreeOK ok fits P kind full n h)
    (hbin : Binary h) (hsort : Sorted h) (priors : List (ℕ × D)) (hp : ∀ b ∈ priors, ∃ k, ok k b.2)
    {q e : Query} (hq : QueryOK fits kind n q) (he : QueryOK fits kind n e) (hne : e ≠ [])
    (hpt : ∀ i ∈ e, i.2.point = none) (hc : Certain P h q e) (hm : mass P h e ≠ 0) :
    ∃ h' ps, conditional o n full h priors e = .ok (h', ps) ∧ ∀ fail,
      infer o n full h' q [] fail = infer o n full h q e fail := by
  obtain ⟨h', ps, h1, -, -, -, -, h2⟩ := (C47_conditional_partial L hT hbin hsort priors hp he hne hpt).2 hm
  refine ⟨h', ps, h1, fun fail => ?_⟩
  rw [h2 q hq fail, C45_infer_partial L hT hq he hc fail hm]

/-- For all trees learned over symbolic and integer variables. -/
theorem C47_learned {L : Type} [DecidableEq L] (c : Cfg) (kind : ℕ → Bool × Disc.Dom L) (data : Data)
    (total : ℕ) (hk : Discrete c kind) (hdata : DataOK c data total) (h : Heap (DD L))
    (hl : learn c data total (fitDisc kind data) = .ok h) (priors : List (ℕ × DD L))
    (hp : ∀ b ∈ priors, ∃ k, discOk k b.2) (e : Query)
    (he : QueryOK discFits kind c.vars.length e) (hne : e ≠ []) :
    (mass discP h e = 0 →
      conditional (discOps L) c.vars.length (fullOf c) h priors e = .error .unsatisfiable) ∧
    (mass discP h e ≠ 0 → ∃ h' ps,
      conditional (discOps L) c.vars.length (fullOf c) h priors e = .ok (h', ps) ∧
      List.Forall₂ (Conditioned discFits discP kind c.vars.length e (mass discP h e))
        (h.leaves.filter (fun l => decide (0 < leafProb discP l.2 e))) h'.leaves ∧
      (h'.leaves.map (fun l => l.2.prior)).sum = 1 ∧
      ∀ q, QueryOK discFits kind c.vars.length q → ∀ fail,
        infer (discOps L) c.vars.length (fullOf c) h' q [] fail
          = .ok (some (mass discP h (meet q e) / mass discP h e))) := by
  obtain ⟨hb, hs⟩ := learned_binary hdata hl
  obtain ⟨h1, h2⟩ := C47_conditional_partial disc_laws (learned_ok hk hdata hl) hb hs priors hp he hne
    (by
      intro i hi
      obtain ⟨l, hr, -⟩ := (he.2 i hi).2.1
      rw [hr]
      rfl)
  refine ⟨h1, fun hm => ?_⟩
  obtain ⟨h', ps, h3, -, h5, h6, -, h7⟩ := h2 hm
  exact ⟨h', ps, h3, h5, h6, h7⟩

/-- A check on a result. -/
def okAnd {α : Type} (x : Except Err α) (p : α → Bool) : Bool :=
  match x with
  | .error _ => false
  | .ok a => p a

theorem okAnd_true {α : Type} {x : Except Err α} {p : α → Bool} (h : okAnd x p = true) :
    ∃ a, x = .ok a ∧ p a = true := by
  cases x with
  | error e => cases h
  | ok a => exact ⟨a, rfl, h⟩

/-- Leaves with one row each. -/
def exC : Learn.Args := ⟨[.symbolic 2, .integer 3], [], [], .int 1, none, none, none, fun _ => false⟩

/-- The answer of a tree after conditioning, possibly twice. -/
def exCond (a : Learn.Args) (e1 e2 q : Query) : Except Err (Option ℚ) := do
  let h ← exLearn a
  let c ← conditional (discOps ℤ) 2 (fullOf (a.cfg 6)) h [] e1
  let d ← conditional (discOps ℤ) 2 (fullOf (a.cfg 6)) c.1 [] e2
  infer (discOps ℤ) 2 (fullOf (a.cfg 6)) d.1 q []

example : ∃ h, exLearn exC = .ok h ∧ h.leaves.length = 4 ∧
    mass discP h [(1, .set [0, 2]), (0, .set [1])] = 1 / 3 := exists_ok (by decide +kernel)

example : exCond exC [(0, .set [0])] [] [(1, .set [1])] = .ok (some (1 / 3)) ∧
    exCond exC [(0, .set [0])] [] [(1, .set [0, 1])] = .ok (some 1) ∧
    exCond exC [(0, .set [0]), (1, .set [2])] [] [] = .error .unsatisfiable := by decide +kernel

/-- A node that has lost a child to conditioning is not entered again, so a tree cannot be conditioned
twice: evidence with probability one half is reported unsatisfiable. -/
theorem C47_violated_twice : ∃ (c : Cfg) (kind : ℕ → Bool × Disc.Dom ℤ) (data : Data) (total : ℕ)
    (h : Heap (DD ℤ)) (e e' : Query) (h' : Heap (DD ℤ)) (ps : List (ℕ × DD ℤ)),
    Discrete c kind ∧ DataOK c data total ∧
    learn c data total (fitDisc kind data) = .ok h ∧ QueryOK discFits kind c.vars.length e ∧
    QueryOK discFits kind c.vars.length e' ∧
    conditional (discOps ℤ) c.vars.length (fullOf c) h [] e = .ok (h', ps) ∧
    infer (discOps ℤ) c.vars.length (fullOf c) h' e' [] = .ok (some (1 / 2)) ∧
    conditional (discOps ℤ) c.vars.length (fullOf c) h' ps e' = .error .unsatisfiable := by
  obtain ⟨h, h1, h2⟩ : ∃ h, exLearn exC = .ok h ∧
      okAnd (conditional (discOps ℤ) 2 (fullOf (exC.cfg 6)) h [] [(1, .set [0, 2])]) (fun x =>
        decide (infer (discOps ℤ) 2 (fullOf (exC.cfg 6)) x.1 [(1, .set [2])] [] = .ok (some (1 / 2)) ∧
        (conditional (discOps ℤ) 2 (fullOf (exC.cfg 6)) x.1 x.2 [(1, .set [2])]).map
          (fun _ => ()) = .error .unsatisfiable)) = true := exists_ok (by decide +kernel)
  obtain ⟨x, h3, h4⟩ := okAnd_true h2
  obtain ⟨h4, h5⟩ := of_decide_eq_true h4
  refine ⟨exC.cfg 6, exKind, exData, 6, h, [(1, .set [0, 2])], [(1, .set [2])], x.1, x.2, exA_kind,
    exA_data, h1, queryCheck_ok (by decide), queryCheck_ok (by decide), h3, h4, ?_⟩
  cases h6 : conditional (discOps ℤ) 2 (fullOf (exC.cfg 6)) x.1 x.2 [(1, .set [2])] with
  | error y =>
    rw [h6] at h5
    injection h5 with h5
    rw [← h5]
    exact h6
  | ok y => rw [h6] at h5; cases h5

/-- `infer` multiplies the probability of common variables twice (C45); the conditional tree does
not, so that the two disagree. -/
theorem C47_violated_infer : ∃ (c : Cfg) (kind : ℕ → Bool × Disc.Dom ℤ) (data : Data) (total : ℕ)
    (h : Heap (DD ℤ)) (e : Query) (h' : Heap (DD ℤ)) (ps : List (ℕ × DD ℤ)),
    Discrete c kind ∧ DataOK c data total ∧
    learn c data total (fitDisc kind data) = .ok h ∧ QueryOK discFits kind c.vars.length e ∧
    conditional (discOps ℤ) c.vars.length (fullOf c) h [] e = .ok (h', ps) ∧
    infer (discOps ℤ) c.vars.length (fullOf c) h' e [] = .ok (some 1) ∧
    infer (discOps ℤ) c.vars.length (fullOf c) h e e = .ok (some (1 / 3)) := by
  obtain ⟨h, h1, h2⟩ : ∃ h, exLearn exB = .ok h ∧
      okAnd (conditional (discOps ℤ) 2 (fullOf (exB.cfg 6)) h [] [(1, .set [0])]) (fun x =>
        decide (infer (discOps ℤ) 2 (fullOf (exB.cfg 6)) x.1 [(1, .set [0])] [] = .ok (some 1) ∧
        infer (discOps ℤ) 2 (fullOf (exB.cfg 6)) h [(1, .set [0])] [(1, .set [0])]
          = .ok (some (1 / 3)))) = true := exists_ok (by decide +kernel)
  obtain ⟨x, h3, h4⟩ := okAnd_true h2
  obtain ⟨h4, h5⟩ := of_decide_eq_true h4
  exact ⟨exB.cfg 6, exKind, exData, 6, h, [(1, .set [0])], x.1, x.2, exB_kind, exB_data, h1,
    queryCheck_ok (by decide), h3, h4, h5⟩

/-! ## C48: `mpe` -/

/-- `mpe`: the maximum over the leaves of the conditional tree of prior times likelihood, over all
assignments of values, and exactly the states that attain it, one for each leaf that does.  Missing:
distributions whose maximal density is infinite, and what `C47_conditional_partial` lacks. -/
theorem C48_mpe_partial {X : Type} {val : K → X → Prop} {dens : D → X → ℚ} {has : E → X → Prop}
    (L : Laws o ok fits P) (M : MpeLaws o ok val dens has) (hT : TreeOK ok fits P kind full n h)
    (hbin : Binary h) (hsort : Sorted h) (priors : List (ℕ × D)) (hp : ∀ b ∈ priors, ∃ k, ok k b.2)
    (dists : ℕ → Option ℚ) {e : Query} (he : QueryOK fits kind n e) (hpt : ∀ i ∈ e, i.2.point = none) :
    (mass P h e = 0 → e ≠ [] → mpe o n full dists h priors e = .error .unsatisfiable) ∧
    (mass P h e ≠ 0 → ∃ c ps ss m, conditional o n full h priors e = .ok (c, ps) ∧
      mpe o n full dists h priors e = .ok (ss, m) ∧ 0 < m ∧ ss ≠ [] ∧
      (∀ l ∈ c.leaves, ∀ x, Assigns val kind n x → leafDens dens l.2 x ≤ m) ∧
      (∀ s ∈ ss, (∃ x, List.Forall₂ has s x) ∧
        ∃ l ∈ c.leaves, ∀ x, List.Forall₂ has s x ↔ Assigns val kind n x ∧ leafDens dens l.2 x = m) ∧
      (∀ l ∈ c.leaves, ∀ x, Assigns val kind n x → leafDens dens l.2 x = m →
        ∃ s ∈ ss, List.Forall₂ has s x)) := by
  have hcheck := checkQuery_ok he
  constructor
  · intro hm hne
    unfold mpe
    rw [hcheck, (C47_conditional_partial L hT hbin hsort priors hp he hne hpt).1 hm]
    rfl
  · intro hm
    have hc : ∃ c ps, conditional o n full h priors e = .ok (c, ps) ∧ TreeOK ok fits P kind full n c ∧
        ∃ l ∈ c.leaves, l.2.prior ≠ 0 := by
      by_cases hne : e = []
      · subst hne
        refine ⟨h, priors, C47_empty L hT hsort priors hp, hT, ?_⟩
        by_contra hc
        apply hm
        unfold mass
        apply List.sum_eq_zero
        intro x hx
        obtain ⟨l, hl, rfl⟩ := List.mem_map.1 hx
        have : l.2.prior = 0 := by
          by_contra h0
          exact hc ⟨l, hl, h0⟩
        rw [this, zero_mul]
      · obtain ⟨c, ps, h1, h2, -, h3, -, -⟩ :=
          (C47_conditional_partial L hT hbin hsort priors hp he hne hpt).2 hm
        refine ⟨c, ps, h1, h2, ?_⟩
        by_contra hc
        rw [List.sum_eq_zero] at h3
        · exact absurd h3 (by norm_num)
        · intro x hx
          obtain ⟨l, hl, rfl⟩ := List.mem_map.1 hx
          by_contra h0
          exact hc ⟨l, hl, h0⟩
    obtain ⟨c, ps, h1, h2, h3⟩ := hc
    obtain ⟨ss, m, h4, h5⟩ := mpeOf_eq M dists h2.dists h2.prior h3
    refine ⟨c, ps, ss, m, h1, ?_, h5⟩
    unfold mpe
    rw [hcheck, h1]
    simp only [bind, Except.bind]
    exact h4

/-- A variable that the tree does not know. -/
theorem C48_errors (dists : ℕ → Option ℚ) (priors : List (ℕ × D)) {e : Query} (he : ∃ i ∈ e, n ≤ i.1) :
    mpe o n full dists h priors e = .error .valueError := by
  unfold mpe checkQuery
  rw [if_neg]
  · rfl
  · obtain ⟨i, hi, hn⟩ := he
    intro hc
    have := hc i hi
    omega

/-- The query for one label of each variable. -/
def labelQuery {L : Type} [DecidableEq L] (kind : ℕ → Bool × Disc.Dom L) (x : List L) : Query :=
  x.zipIdx.map (fun a => (a.2, .set [((kind a.2).2.labels.idxOf a.1 : ℤ)]))

theorem labelQuery_ok {L : Type} [DecidableEq L] {kind : ℕ → Bool × Disc.Dom L} {n : ℕ} {x : List L}
    (hx : Assigns discVal kind n x) : QueryOK discFits kind n (labelQuery kind x) := by
  constructor
  · unfold labelQuery
    rw [List.map_map]
    have : x.zipIdx.map (Prod.fst ∘ fun a : L × ℕ =>
        (a.2, Region.set [((kind a.2).2.labels.idxOf a.1 : ℤ)])) = x.zipIdx.map Prod.snd := rfl
    rw [this, List.zipIdx_map_snd]
    exact List.nodup_range'
  · intro i hi
    obtain ⟨⟨l, v⟩, ha, rfl⟩ := List.mem_map.1 hi
    have hg := List.mem_zipIdx_iff_getElem?.1 ha
    simp only at hg ⊢
    have hv : v < n := by
      have := (List.getElem?_eq_some_iff.1 hg).1
      rw [hx.1] at this
      exact this
    refine ⟨hv, ⟨_, rfl, ?_⟩, trivial⟩
    intro z hz
    rw [List.mem_singleton.1 hz]
    have := List.idxOf_lt_length_of_mem (hx.2 v l hg)
    omega

theorem discP_label {L : Type} [DecidableEq L] {k : Bool × Disc.Dom L} {d : DD L} (hd : discOk k d) {x : L}
    (_hx : discVal k x) : discP d (.set [(k.2.labels.idxOf x : ℤ)]) = discDens d x := by
  obtain ⟨-, h2, h3⟩ := hd
  rw [discP_labels h3]
  unfold discDens Disc.Dist.P
  apply Disc.mass_congr_set
  intro l hl
  rw [mem_set_nat, List.mem_singleton, h2, Nat.cast_inj]
  rw [h2] at hl
  exact List.idxOf_inj hl

theorem leafDens_prob {L : Type} [DecidableEq L] {kind : ℕ → Bool × Disc.Dom L} {n : ℕ} {l : Leaf (DD L)}
    (hlen : l.dists.length = n) (hok : ∀ (v : ℕ) (d : DD L), l.dists[v]? = some d → discOk (kind v) d)
    {x : List L} (hx : Assigns discVal kind n x) :
    leafDens discDens l x = l.prior * leafProb discP l (labelQuery kind x) := by
  unfold leafDens leafProb labelQuery
  rw [List.map_map]
  congr 2
  apply List.ext_getElem
  · simp [hlen, hx.1]
  · intro i h1 h2
    rw [List.getElem_zipWith, List.getElem_map, List.getElem_zipIdx]
    simp only [List.length_map, List.length_zipIdx] at h2
    have hi : i < l.dists.length := by rw [hlen, ← hx.1]; exact h2
    simp only [Function.comp, zero_add]
    rw [List.getElem?_eq_getElem hi]
    simp only
    rw [discP_label (hok i _ (List.getElem?_eq_getElem hi)) (hx.2 i _ (List.getElem?_eq_getElem h2))]

/-- For all trees learned over symbolic and integer variables: `mpe(e)` returns the maximum over
leaves and assignments `x` of prior times the probability of `x` and `e` in the leaf, over the
probability of `e`, and every state is the set of maximisers of one leaf.  Every pair of a leaf and an
assignment that attains the maximum is among them. -/
theorem C48_learned {L : Type} [DecidableEq L] (c : Cfg) (kind : ℕ → Bool × Disc.Dom L) (data : Data)
    (total : ℕ) (hk : Discrete c kind) (hdata : DataOK c data total) (h : Heap (DD L))
    (hl : learn c data total (fitDisc kind data) = .ok h) (priors : List (ℕ × DD L))
    (hp : ∀ b ∈ priors, ∃ k, discOk k b.2) (dists : ℕ → Option ℚ) (e : Query)
    (he : QueryOK discFits kind c.vars.length e) (hne : e ≠ []) :
    (mass discP h e = 0 →
      mpe (discOps L) c.vars.length (fullOf c) dists h priors e = .error .unsatisfiable) ∧
    (mass discP h e ≠ 0 → ∃ ss m,
      mpe (discOps L) c.vars.length (fullOf c) dists h priors e = .ok (ss, m) ∧ 0 < m ∧ ss ≠ [] ∧
      (∀ l ∈ h.leaves, ∀ x, Assigns discVal kind c.vars.length x →
        l.2.prior * leafProb discP l.2 (meet (labelQuery kind x) e) / mass discP h e ≤ m) ∧
      (∀ s ∈ ss, (∃ x, List.Forall₂ discHas s x) ∧ ∃ l ∈ h.leaves, ∀ x, List.Forall₂ discHas s x ↔
        Assigns discVal kind c.vars.length x ∧
        l.2.prior * leafProb discP l.2 (meet (labelQuery kind x) e) / mass discP h e = m) ∧
      (∀ l ∈ h.leaves, ∀ x, Assigns discVal kind c.vars.length x →
        l.2.prior * leafProb discP l.2 (meet (labelQuery kind x) e) / mass discP h e = m →
        ∃ s ∈ ss, List.Forall₂ discHas s x)) := by
  obtain ⟨hb, hs⟩ := learned_binary hdata hl
  have hT := learned_ok hk hdata hl
  have hpt : ∀ i ∈ e, i.2.point = none := by
    intro i hi
    obtain ⟨l, hr, -⟩ := (he.2 i hi).2.1
    rw [hr]
    rfl
  obtain ⟨h1, h2⟩ := C48_mpe_partial disc_laws disc_mpe hT hb hs priors hp dists he hpt
  refine ⟨fun hm => h1 hm hne, fun hm => ?_⟩
  obtain ⟨h', ps, ss, m, h3, h4, h5, h6, h7, h8, h9⟩ := h2 hm
  obtain ⟨h'', ps', h10, h11, h12, -, -, -⟩ :=
    (C47_conditional_partial disc_laws hT hb hs priors hp he hne hpt).2 hm
  rw [h3] at h10
  injection h10 with h10
  injection h10 with h10 _
  subst h10
  -- the likelihoods in the conditional tree
  have hrel : ∀ l l', l ∈ h.leaves → 0 < leafProb discP l.2 e → l' ∈ h'.leaves →
      Conditioned discFits discP kind c.vars.length e (mass discP h e) l l' → ∀ x,
      Assigns discVal kind c.vars.length x → leafDens discDens l'.2 x
        = l.2.prior * leafProb discP l.2 (meet (labelQuery kind x) e) / mass discP h e := by
    intro l l' hl hpos hl' hc x hx
    rw [leafDens_prob (h11.dists l' hl').1 (h11.dists l' hl').2 hx,
      ← leafProb_cond (hT.dists l hl).1 hpos.ne' he.1 (labelQuery_ok hx) rfl hc.dists, hc.prior]
    ring
  have hto : ∀ l' ∈ h'.leaves, ∃ l ∈ h.leaves, 0 < leafProb discP l.2 e ∧
      Conditioned discFits discP kind c.vars.length e (mass discP h e) l l' := by
    intro l' hl'
    obtain ⟨i, hi, rfl⟩ := List.getElem_of_mem hl'
    have hlen := h12.length_eq
    have := List.Forall₂.get h12 (by omega : i < _) hi
    have hmem := List.mem_filter.1 (List.getElem_mem (by omega : i <
      (h.leaves.filter (fun l => decide (0 < leafProb discP l.2 e))).length))
    exact ⟨_, hmem.1, by simpa using hmem.2, this⟩
  have hfrom : ∀ l ∈ h.leaves, 0 < leafProb discP l.2 e → ∃ l' ∈ h'.leaves,
      Conditioned discFits discP kind c.vars.length e (mass discP h e) l l' := by
    intro l hl hpos
    obtain ⟨i, hi, hli⟩ := List.getElem_of_mem (List.mem_filter.2 ⟨hl, by simpa using hpos⟩ :
      l ∈ h.leaves.filter (fun l => decide (0 < leafProb discP l.2 e)))
    have hlen := h12.length_eq
    have := List.Forall₂.get h12 hi (by omega : i < _)
    refine ⟨_, List.getElem_mem (by omega : i < h'.leaves.length), ?_⟩
    rw [← hli]
    exact this
  have hzero : ∀ l ∈ h.leaves, ¬ 0 < leafProb discP l.2 e → ∀ x, Assigns discVal kind c.vars.length x →
      l.2.prior * leafProb discP l.2 (meet (labelQuery kind x) e) / mass discP h e = 0 := by
    intro l hl hpos x hx
    have h0 : leafProb discP l.2 e = 0 := le_antisymm (not_lt.1 hpos)
      (leafProb_nonneg disc_laws.toPLaws (hT.dists l hl).2 (fun i hi => (he.2 i hi).2.1))
    rw [leafProb_meet_zero disc_laws.toPLaws (hT.dists l hl).2 (labelQuery_ok hx) he h0, mul_zero, zero_div]
  refine ⟨ss, m, h4, h5, h6, ?_, ?_, ?_⟩
  · intro l hl x hx
    by_cases hpos : 0 < leafProb discP l.2 e
    · obtain ⟨l', hl', hc⟩ := hfrom l hl hpos
      rw [← hrel l l' hl hpos hl' hc x hx]
      exact h7 l' hl' x hx
    · rw [hzero l hl hpos x hx]
      exact h5.le
  · intro s hss
    obtain ⟨h13, l', hl', h14⟩ := h8 s hss
    obtain ⟨l, hl, hpos, hc⟩ := hto l' hl'
    refine ⟨h13, l, hl, fun x => ?_⟩
    rw [h14 x]
    apply and_congr_right
    intro hx
    rw [hrel l l' hl hpos hl' hc x hx]
  · intro l hl x hx hxm
    by_cases hpos : 0 < leafProb discP l.2 e
    · obtain ⟨l', hl', hc⟩ := hfrom l hl hpos
      rw [← hrel l l' hl hpos hl' hc x hx] at hxm
      exact h9 l' hl' x hx hxm
    · rw [hzero l hl hpos x hx] at hxm
      exact absurd hxm h5.ne

/-- `mpe` of the example. -/
def exMpe (a : Learn.Args) (e : Query) : Except Err (List (List (Disc.Arg ℤ)) × ℚ) := do
  let h ← exLearn a
  mpe (discOps ℤ) 2 (fullOf (a.cfg 6)) (fun _ => none) h [] e

example : exMpe exA [] = .ok ([[.set [10], .set [1]], [.set [20], .set [3]]], 1 / 3) ∧
    exMpe exA [(1, .set [0, 1])] = .ok ([[.set [10], .set [1]]], 1 / 2) ∧
    exMpe exB [(1, .set [0, 2])] = .ok ([[.set [10, 20], .set [1, 3]]], 1 / 4) ∧
    exMpe exA [(0, .set [0]), (1, .set [2])] = .error .unsatisfiable :=
  ⟨by decide +kernel, by decide +kernel, by decide +kernel, by decide +kernel⟩

/-! ## C53: `multiply_by_leaf_prior` -/

theorem mapM_lookup (prior : List (ℕ × ℚ)) (f : ℕ → ℚ) (ls : List (ℕ × Leaf D))
    (hf : ∀ l ∈ ls, prior.lookup l.1 = some (f l.1)) :
    ls.mapM (scaleBy prior) = .ok (ls.map (fun l => (l.1, l.2.scale (f l.1)))) := by
  apply mapM_ok
  intro l hl
  unfold scaleBy
  rw [hf l hl]

/-- The new priors are proportional to prior times factor and sum to one; the call fails exactly if the
products sum to zero.  Nothing but the priors changes. -/
theorem C53_multiply (prior : List (ℕ × ℚ)) (f : ℕ → ℚ)
    (hf : ∀ l ∈ h.leaves, prior.lookup l.1 = some (f l.1)) :
    ((h.leaves.map (fun l => l.2.prior * f l.1)).sum = 0 →
      multiplyPriors h prior = .error .unsatisfiable) ∧
    ((h.leaves.map (fun l => l.2.prior * f l.1)).sum ≠ 0 → ∃ h', multiplyPriors h prior = .ok h' ∧
      h'.inner = h.inner ∧ h'.root = h.root ∧
      h'.leaves = h.leaves.map (fun l => (l.1, { l.2 with prior := l.2.prior * f l.1
        / (h.leaves.map (fun l => l.2.prior * f l.1)).sum })) ∧
      (h'.leaves.map (fun l => l.2.prior)).sum = 1) := by
  have hsum : (⟨h.inner, h.leaves.map (fun l => (l.1, l.2.scale (f l.1))), h.root⟩ : Heap D).priorSum
      = (h.leaves.map (fun l => l.2.prior * f l.1)).sum := by
    unfold Heap.priorSum
    rw [List.map_map]
    rfl
  unfold multiplyPriors
  rw [mapM_lookup prior f h.leaves hf]
  simp only [bind, Except.bind]
  unfold normalize
  rw [hsum]
  constructor
  · intro h0
    rw [if_pos h0]
  · intro h0
    rw [if_neg h0]
    refine ⟨_, rfl, rfl, rfl, ?_, ?_⟩
    · simp only [List.map_map]
      apply List.map_congr_left
      intro l _
      rfl
    · simp only [List.map_map, Function.comp_def, Leaf.scale]
      have := Ut.sum_div (h.leaves.map (fun l => l.2.prior * f l.1))
        (h.leaves.map (fun l => l.2.prior * f l.1)).sum
      rw [div_self h0, List.map_map] at this
      exact this

/-- For factors that are not negative the call fails exactly if all products are zero. -/
theorem C53_zero (prior : List (ℕ × ℚ)) (f : ℕ → ℚ) (hp : ∀ l ∈ h.leaves, 0 ≤ l.2.prior)
    (hf : ∀ l ∈ h.leaves, prior.lookup l.1 = some (f l.1)) (h0 : ∀ l ∈ h.leaves, 0 ≤ f l.1) :
    multiplyPriors h prior = .error .unsatisfiable ↔ ∀ l ∈ h.leaves, l.2.prior * f l.1 = 0 := by
  have hiff : (h.leaves.map (fun l => l.2.prior * f l.1)).sum = 0 ↔
      ∀ l ∈ h.leaves, l.2.prior * f l.1 = 0 := by
    rw [Ut.sum_eq_zero_iff]
    · exact List.forall_mem_map
    · intro x hx
      obtain ⟨l, hl, rfl⟩ := List.mem_map.1 hx
      exact mul_nonneg (hp l hl) (h0 l hl)
  rw [← hiff]
  obtain ⟨h1, h2⟩ := C53_multiply prior f hf
  constructor
  · intro he
    by_contra hc
    obtain ⟨h', h3, -⟩ := h2 hc
    rw [h3] at he
    cases he
  · exact h1

/-- A leaf without factor. -/
theorem C53_missing (prior : List (ℕ × ℚ)) (hm : ∃ l ∈ h.leaves, prior.lookup l.1 = none) :
    multiplyPriors h prior = .error .keyError := by
  have : h.leaves.mapM (scaleBy prior) = .error .keyError := by
    obtain ⟨l, hl, hn⟩ := hm
    generalize h.leaves = ls at hl
    induction ls with
    | nil => cases hl
    | cons a ls ih =>
      rw [List.mapM_cons]
      cases hk : prior.lookup a.1 with
      | none =>
        rw [show scaleBy prior a = .error .keyError by unfold scaleBy; rw [hk]]
        rfl
      | some x =>
        rw [show scaleBy prior a = .ok (a.1, a.2.scale x) by unfold scaleBy; rw [hk]]
        rcases List.mem_cons.1 hl with rfl | hl
        · rw [hn] at hk; cases hk
        · simp only [bind, Except.bind, pure, Except.pure]
          rw [ih hl]
  unfold multiplyPriors
  rw [this]
  rfl

/-- The priors of the example after multiplication. -/
def exMult (f : List (ℕ × ℚ)) : Except Err (List (ℕ × ℚ)) := do
  let h ← exLearn exC
  let h ← multiplyPriors h f
  return h.leaves.map (fun l => (l.1, l.2.prior))

example : exMult [(3, 1), (4, 0), (5, 2), (6, 1 / 2)] = .ok [(3, 2 / 5), (4, 0), (5, 2 / 5), (6, 1 / 5)] ∧
    exMult [(3, 0), (4, 0), (5, 0), (6, 0)] = .error .unsatisfiable ∧
    exMult [(3, 0), (4, 0), (5, 0)] = .error .keyError := by decide +kernel

end Verif.Trees
