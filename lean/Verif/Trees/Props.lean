import Verif.Trees.Lemmas4
import Verif.Trees.Learned

/-!
# Properties of queries on trees: C44, C45, C46

The theorems hold for all distributions that satisfy `Laws`; `disc_laws` proves these for symbolic and
integer distributions and `learned_ok` proves `TreeOK` for all trees learned over such variables.
-/

namespace Verif.Trees

open Learn (Cfg Data learn DataOK fullOf exists_ok)

variable {D E K : Type} {o : DistOps D E} {ok : K → D → Prop} {fits : K → Region → Prop}
  {P : D → Region → ℚ} {kind : ℕ → K} {full : ℕ → Region} {n : ℕ} {h : Heap D}

/-! ## Examples -/

/-- A symbolic and an integer variable. -/
def exA : Learn.Args := ⟨[.symbolic 2, .integer 3], [], [], .int 3, none, none, none, fun _ => false⟩

/-- The same with larger leaves. -/
def exB : Learn.Args := ⟨[.symbolic 2, .integer 3], [], [], .int 6, none, none, none, fun _ => false⟩

/-- Their domains. -/
def exKind : ℕ → Bool × Disc.Dom ℤ
  | 0 => (false, ⟨"W", [10, 20]⟩)
  | _ => (true, ⟨"N", [1, 2, 3]⟩)

def exData : Data := fun r v =>
  (([[0, 0], [0, 0], [0, 1], [1, 2], [1, 2], [1, 1]] : List (List ℚ)).getD r []).getD v 0

theorem exA_kind : Discrete (exA.cfg 6) exKind := by
  intro v hv
  match v, hv with
  | 0, _ => exact ⟨by decide, .inr ⟨rfl, rfl⟩⟩
  | 1, _ => exact ⟨by decide, .inl ⟨rfl, rfl⟩⟩
  | v + 2, hv => exact absurd hv (by simp [exA, Learn.Args.cfg])

theorem exB_kind : Discrete (exB.cfg 6) exKind := exA_kind

theorem exA_data : DataOK (exA.cfg 6) exData 6 := by
  intro r hr v n hv
  have hcases : r = 0 ∨ r = 1 ∨ r = 2 ∨ r = 3 ∨ r = 4 ∨ r = 5 := by omega
  match v, hv with
  | 0, hv =>
    have : n = 2 := by
      rcases hv with hv | hv
      · exact absurd hv (by simp [exA, Learn.Args.cfg])
      · injection hv with hv; injection hv with hv; exact hv.symm
    subst this
    rcases hcases with rfl | rfl | rfl | rfl | rfl | rfl
    · exact ⟨0, by decide, by decide +kernel⟩
    · exact ⟨0, by decide, by decide +kernel⟩
    · exact ⟨0, by decide, by decide +kernel⟩
    · exact ⟨1, by decide, by decide +kernel⟩
    · exact ⟨1, by decide, by decide +kernel⟩
    · exact ⟨1, by decide, by decide +kernel⟩
  | 1, hv =>
    have : n = 3 := by
      rcases hv with hv | hv
      · injection hv with hv; injection hv with hv; exact hv.symm
      · exact absurd hv (by simp [exA, Learn.Args.cfg])
    subst this
    rcases hcases with rfl | rfl | rfl | rfl | rfl | rfl
    · exact ⟨0, by decide, by decide +kernel⟩
    · exact ⟨0, by decide, by decide +kernel⟩
    · exact ⟨1, by decide, by decide +kernel⟩
    · exact ⟨2, by decide, by decide +kernel⟩
    · exact ⟨2, by decide, by decide +kernel⟩
    · exact ⟨1, by decide, by decide +kernel⟩
  | v + 2, hv => exact absurd hv (by rintro (h | h) <;> exact absurd h (by simp [exA, Learn.Args.cfg]))

theorem exB_data : DataOK (exB.cfg 6) exData 6 := exA_data

/-- The trees learned from the example. -/
abbrev exLearn (a : Learn.Args) : Except Err (Heap (DD ℤ)) :=
  learn (a.cfg 6) exData 6 (fitDisc exKind exData)

/-- A check for queries over discrete variables. -/
def queryCheck {L : Type} (kind : ℕ → Bool × Disc.Dom L) (n : ℕ) (q : Query) : Bool :=
  decide (q.map Prod.fst).Nodup && q.all (fun i => decide (i.1 < n) && match i.2 with
    | .set l => l.all (fun z => decide (0 ≤ z) && decide (z < ((kind i.1).2.labels.length : ℤ)))
    | .num _ => false)

theorem queryCheck_ok {L : Type} {kind : ℕ → Bool × Disc.Dom L} {n : ℕ} {q : Query}
    (h : queryCheck kind n q = true) : QueryOK discFits kind n q := by
  unfold queryCheck at h
  rw [Bool.and_eq_true, decide_eq_true_eq, List.all_eq_true] at h
  refine ⟨h.1, ?_⟩
  rintro ⟨v, r⟩ hi
  have := h.2 _ hi
  rw [Bool.and_eq_true, decide_eq_true_eq] at this
  obtain ⟨h1, h2⟩ := this
  cases r with
  | num c => cases h2
  | set l =>
    refine ⟨h1, ⟨l, rfl, ?_⟩, trivial⟩
    intro z hz
    have := List.all_eq_true.1 h2 z hz
    simpa using this

/-! ## C44: `apply` -/

/-- The leaves that `apply` yields: each leaf whose path is compatible with the query, exactly
once. -/
theorem C44_apply (q : Query) (hshape : Shape h) (hfull : Full h) (hroot : h.root ≠ none)
    (hpath : ∀ e ∈ h.leaves, ∀ s ∈ e.2.path, s.2.OK) (hq : ∀ i ∈ q, i.1 < n ∧ i.2.OK) :
    ∃ ls, apply n h q = .ok ls ∧ (ls.map Prod.fst).Nodup ∧
      ∀ l, l ∈ ls ↔ l ∈ h.leaves ∧ Compatible q l.2.path := by
  obtain ⟨ls, h1, h2⟩ := apply_perm (q := q) hshape hfull hroot (fun i hi => (hq i hi).1)
  have hnd : (h.leaves.map Prod.fst).Nodup := (List.nodup_append.1 hshape.nodup).2.1
  refine ⟨ls, h1, ?_, ?_⟩
  · rw [(h2.map Prod.fst).nodup_iff]
    exact hnd.sublist (List.filter_sublist.map _)
  · intro l
    rw [h2.mem_iff, List.mem_filter]
    apply and_congr_right
    intro hl
    rw [List.all_eq_true]
    unfold Compatible
    apply forall_congr'
    intro s
    apply forall_congr'
    intro hs
    unfold passes
    cases hk : q.lookup s.1 with
    | none => simp
    | some r =>
      have hr : r.OK := (hq _ (Dict.lookup_mem hk)).2
      simp only [Option.some.injEq, forall_eq']
      have := Region.disjoint_iff hr (hpath l hl s hs)
      cases hd : r.disjoint s.2 with
      | true =>
        have h3 := this.1 hd
        constructor
        · intro h; cases h
        · rintro ⟨x, hx⟩; exact absurd hx (h3 x)
      | false =>
        constructor
        · intro _
          by_contra hc
          rw [this.2 (fun x hx => hc ⟨x, hx⟩)] at hd
          cases hd
        · intro _; rfl

/-- An unknown variable, or an unfitted tree. -/
theorem C44_errors (q : Query) :
    ((∃ i ∈ q, n ≤ i.1) → apply n h q = .error .typeError) ∧
    ((∀ i ∈ q, i.1 < n) → h.root = none → apply n h q = .error .runtimeError) := by
  unfold apply
  constructor
  · rintro ⟨i, hi, hn⟩
    rw [if_neg]
    intro hc
    have := hc i hi
    omega
  · intro hq hr
    rw [if_pos hq, hr]

/-- For all learned trees. -/
theorem C44_learned (c : Cfg) (data : Data) (total : ℕ) (fit : List ℕ → ℕ → D)
    (hdata : DataOK c data total) (hl : learn c data total fit = .ok h) (q : Query)
    (hq : ∀ i ∈ q, i.1 < c.vars.length ∧ i.2.OK) :
    ∃ ls, apply c.vars.length h q = .ok ls ∧ (ls.map Prod.fst).Nodup ∧
      ∀ l, l ∈ ls ↔ l ∈ h.leaves ∧ Compatible q l.2.path := by
  obtain ⟨idx, hI⟩ := Learn.learn_inv hdata hl
  obtain ⟨h1, h2, h3⟩ := learned_shape hdata hl
  exact C44_apply q h1 h2 h3 (fun e he s hs => ((hI.leaf e he).regions s hs).1) hq

example : ∃ h, exLearn exA = .ok h ∧
    (∃ ls, apply 2 h [(0, .set [0])] = .ok ls ∧ ls.map Prod.fst = [1]) ∧
    (∃ ls, apply 2 h [(1, .set [0])] = .ok ls ∧ ls.map Prod.fst = [2, 1]) := by
  obtain ⟨h, h1, h2⟩ : ∃ h, exLearn exA = .ok h ∧
      ((apply 2 h [(0, .set [0])]).toOption.map (fun ls => ls.map Prod.fst) = some [1] ∧
       (apply 2 h [(1, .set [0])]).toOption.map (fun ls => ls.map Prod.fst) = some [2, 1]) :=
    exists_ok (by decide +kernel)
  have key : ∀ {x : Except Err (List (ℕ × Leaf (DD ℤ)))} {l : List ℕ},
      x.toOption.map (fun ls => ls.map Prod.fst) = some l → ∃ ls, x = .ok ls ∧ ls.map Prod.fst = l := by
    intro x l hx
    cases x with
    | error e => cases hx
    | ok a => exact ⟨a, rfl, by simpa [Except.toOption] using hx⟩
  exact ⟨h, h1, key h2.1, key h2.2⟩

/-! ## C45: `infer` -/

/-- In every leaf, of the two restrictions of a variable in both query and evidence, one has
probability 0 or 1. -/
def Certain (P : D → Region → ℚ) (h : Heap D) (q e : Query) : Prop :=
  ∀ l ∈ h.leaves, ∀ i ∈ q, ∀ r, e.lookup i.1 = some r → ∀ d, l.2.dists[i.1]? = some d →
    P d r = 0 ∨ P d r = 1 ∨ P d i.2 = 0 ∨ P d i.2 = 1

theorem certain_indep (L : PLaws o ok fits P) {k : K} {d : D} {r s : Region} (hd : ok k d)
    (hr : fits k r) (hs : fits k s) (h : P d s = 0 ∨ P d s = 1 ∨ P d r = 0 ∨ P d r = 1) :
    P d (r.inter s) = P d r * P d s := by
  have hi := L.inter k r s hr hs
  have h0 := L.nonneg k d _ hd hi
  have h1 := L.mono k d _ s hd hi hs (fun x hx => ((Region.mem_inter x).1 hx).2)
  have h2 := L.mono k d _ r hd hi hr (fun x hx => ((Region.mem_inter x).1 hx).1)
  rcases h with h | h | h | h
  · rw [h, mul_zero]; rw [h] at h1; exact le_antisymm h1 h0
  · rw [L.sure k d r s hd hr hs h, h, mul_one]
  · rw [h, zero_mul]; rw [h] at h2; exact le_antisymm h2 h0
  · rw [h, one_mul, ← L.sure k d s r hd hs hr h]
    exact L.ext k d _ _ hd hi (L.inter k s r hs hr) (fun x => by
      rw [Region.mem_inter, Region.mem_inter, and_comm])

/-- The value of `infer`, where variables that occur both in the query and in the evidence are
certain within the leaves.  Missing: other common variables, see `C45_violated_self`. -/
theorem C45_infer_partial (L : PLaws o ok fits P) (hT : TreeOK ok fits P kind full n h) {q e : Query}
    (hq : QueryOK fits kind n q) (he : QueryOK fits kind n e) (hc : Certain P h q e) (fail : Bool)
    (hm : mass P h e ≠ 0) :
    infer o n full h q e fail = .ok (some (mass P h (meet q e) / mass P h e)) := by
  rw [infer_eq L hT hq he fail, if_neg hm]
  congr 3
  unfold mass
  congr 1
  apply List.map_congr_left
  intro l hl
  congr 1
  rw [leafProb_meet hq.1 he.1]
  intro i hi r hr d hd
  exact certain_indep L ((hT.dists l hl).2 i.1 d hd) (hq.2 i hi).2.1
    (he.2 _ (Dict.lookup_mem hr)).2.1 (hc l hl i hi r hr d hd)

/-- Query and evidence on different variables. -/
theorem C45_infer_apart (L : PLaws o ok fits P) (hT : TreeOK ok fits P kind full n h) {q e : Query}
    (hq : QueryOK fits kind n q) (he : QueryOK fits kind n e) (hdis : ∀ i ∈ q, ∀ j ∈ e, i.1 ≠ j.1)
    (fail : Bool) (hm : mass P h e ≠ 0) :
    infer o n full h q e fail = .ok (some (mass P h (q ++ e) / mass P h e)) := by
  rw [C45_infer_partial L hT hq he _ fail hm]
  · congr 4
    have h1 : q.map (meetItem e) = q := by
      conv_rhs => rw [← List.map_id q]
      apply List.map_congr_left
      intro i hi
      unfold meetItem
      cases hl : e.lookup i.1 with
      | none => rfl
      | some r => exact absurd rfl (hdis i hi (i.1, r) (Dict.lookup_mem hl))
    have h2 : e.filter (fun i => !(q.map Prod.fst).contains i.1) = e := by
      rw [List.filter_eq_self]
      intro j hj
      simp only [Bool.not_eq_true', List.contains_eq_mem, decide_eq_false_iff_not, List.mem_map,
        not_exists, not_and]
      intro i hi
      exact hdis i hi j hj
    unfold meet
    rw [h1, h2]
  · intro l _ i hi r hr
    exact absurd rfl (hdis i hi (i.1, r) (Dict.lookup_mem hr))

/-- Without evidence, `infer` is the probability of the query, if the priors sum to one. -/
theorem C45_infer_prior (L : PLaws o ok fits P) (hT : TreeOK ok fits P kind full n h) {q : Query}
    (hq : QueryOK fits kind n q) (fail : Bool) (hs : (h.leaves.map (fun l => l.2.prior)).sum = 1) :
    infer o n full h q [] fail = .ok (some (mass P h q)) := by
  have hm : mass P h [] = 1 := by
    rw [← hs]
    unfold mass leafProb
    simp
  rw [C45_infer_apart L hT hq ⟨by simp, by simp⟩ (by simp) fail (by rw [hm]; exact one_ne_zero), hm,
    List.append_nil, div_one]

/-- `infer` fails, or returns `None`, exactly if the evidence has probability zero; otherwise its value
lies in [0,1]. -/
theorem C45_range (L : PLaws o ok fits P) (hT : TreeOK ok fits P kind full n h) {q e : Query}
    (hq : QueryOK fits kind n q) (he : QueryOK fits kind n e) :
    (mass P h e = 0 → infer o n full h q e true = .error .valueError ∧
      infer o n full h q e false = .ok none) ∧
    (mass P h e ≠ 0 → ∃ x, 0 ≤ x ∧ x ≤ 1 ∧ ∀ fail, infer o n full h q e fail = .ok (some x)) := by
  constructor
  · intro hm
    rw [infer_eq L hT hq he, infer_eq L hT hq he, if_pos hm, if_pos hm]
    exact ⟨rfl, rfl⟩
  · intro hm
    have hb := infer_bounds L hT hq he
    have hpos : 0 < mass P h e := lt_of_le_of_ne (mass_nonneg L hT he) (Ne.symm hm)
    refine ⟨_, div_nonneg hb.1 hpos.le, (div_le_one hpos).2 hb.2, ?_⟩
    intro fail
    rw [infer_eq L hT hq he, if_neg hm]

/-- `P(e | e) = 1`, where the evidence is certain within the leaves.  Missing: other evidence, see
`C45_violated_self`. -/
theorem C45_self_partial (L : PLaws o ok fits P) (hT : TreeOK ok fits P kind full n h) {e : Query}
    (he : QueryOK fits kind n e) (hm : mass P h e ≠ 0) (fail : Bool)
    (hc : ∀ l ∈ h.leaves, ∀ i ∈ e, ∀ d, l.2.dists[i.1]? = some d → P d i.2 = 0 ∨ P d i.2 = 1) :
    infer o n full h e e fail = .ok (some 1) := by
  rw [infer_eq L hT he he, if_neg hm]
  congr 2
  rw [div_eq_one_iff_eq hm]
  unfold mass
  congr 1
  apply List.map_congr_left
  intro l hl
  congr 1
  have h01 : leafProb P l.2 e = 0 ∨ leafProb P l.2 e = 1 := by
    clear hm
    unfold leafProb
    induction e with
    | nil => right; rfl
    | cons i e ih =>
      have := ih ⟨(List.nodup_cons.1 he.1).2, fun j hj => he.2 j (List.mem_cons_of_mem _ hj)⟩
        (fun l hl j hj => hc l hl j (List.mem_cons_of_mem _ hj))
      rw [List.map_cons, List.prod_cons]
      cases hd : l.2.dists[i.1]? with
      | none => left; simp
      | some d =>
        rcases hc l hl i List.mem_cons_self d hd with h | h
        · left; simp [h]
        · simp only [h, one_mul]; exact this
  rcases h01 with h | h <;> rw [h] <;> norm_num

/-- For all trees learned over symbolic and integer variables. -/
theorem C45_learned {L : Type} [DecidableEq L] (c : Cfg) (kind : ℕ → Bool × Disc.Dom L) (data : Data)
    (total : ℕ) (hk : Discrete c kind) (hdata : DataOK c data total) (h : Heap (DD L))
    (hl : learn c data total (fitDisc kind data) = .ok h) (q e : Query)
    (hq : QueryOK discFits kind c.vars.length q) (he : QueryOK discFits kind c.vars.length e)
    (hdis : ∀ i ∈ q, ∀ j ∈ e, i.1 ≠ j.1) (fail : Bool) (hm : mass discP h e ≠ 0) :
    infer (discOps L) c.vars.length (fullOf c) h q e fail
      = .ok (some (mass discP h (q ++ e) / mass discP h e)) :=
  C45_infer_apart disc_laws.toPLaws (learned_ok hk hdata hl) hq he hdis fail hm

/-- The evidence may be compatible with a leaf without being certain there: then `infer` multiplies
the probability of a common variable twice, so that `P(A | A) ≠ 1`. -/
theorem C45_violated_self : ∃ (c : Cfg) (kind : ℕ → Bool × Disc.Dom ℤ) (data : Data) (total : ℕ)
    (h : Heap (DD ℤ)) (e : Query), Discrete c kind ∧ DataOK c data total ∧
    learn c data total (fitDisc kind data) = .ok h ∧ QueryOK discFits kind c.vars.length e ∧
    mass discP h e ≠ 0 ∧ infer (discOps ℤ) c.vars.length (fullOf c) h e e = .ok (some (1 / 3)) := by
  obtain ⟨h, h1, h2⟩ : ∃ h, exLearn exB = .ok h ∧ (mass discP h [(1, .set [0])] ≠ 0 ∧
      infer (discOps ℤ) 2 (fullOf (exB.cfg 6)) h [(1, .set [0])] [(1, .set [0])]
        = .ok (some (1 / 3))) := exists_ok (by decide +kernel)
  exact ⟨exB.cfg 6, exKind, exData, 6, h, [(1, .set [0])], exB_kind, exB_data, h1,
    queryCheck_ok (by decide), h2⟩

example : ∃ h, exLearn exA = .ok h ∧
    Certain discP h [(0, .set [1])] [(0, .set [0, 1]), (1, .set [1])] ∧
    infer (discOps ℤ) 2 (fullOf (exA.cfg 6)) h [(1, .set [1])] [(0, .set [0])] = .ok (some (1 / 3)) ∧
    infer (discOps ℤ) 2 (fullOf (exA.cfg 6)) h [(0, .set [1])] [(0, .set [0, 1]), (1, .set [1])]
      = .ok (some (1 / 2)) ∧
    mass discP h [(0, .set [0]), (1, .set [2])] = 0 := by
  obtain ⟨h, h1, h2⟩ : ∃ h, exLearn exA = .ok h ∧
      ((∀ l ∈ h.leaves, ∀ d ∈ l.2.dists[0]?, discP d (.set [0, 1]) = 1) ∧
    infer (discOps ℤ) 2 (fullOf (exA.cfg 6)) h [(1, .set [1])] [(0, .set [0])] = .ok (some (1 / 3)) ∧
    infer (discOps ℤ) 2 (fullOf (exA.cfg 6)) h [(0, .set [1])] [(0, .set [0, 1]), (1, .set [1])]
      = .ok (some (1 / 2)) ∧
    mass discP h [(0, .set [0]), (1, .set [2])] = 0) := exists_ok (by decide +kernel)
  refine ⟨h, h1, ?_, h2.2⟩
  intro l hl i hi r hr d hd
  rw [List.mem_singleton] at hi
  subst hi
  cases hr
  exact .inr (.inl (h2.1 l hl d hd))

/-! ## C46: `posterior` -/

theorem fits_point {L : Type} {k : Bool × Disc.Dom L} {full : ℕ → Region} {l : Leaf (DD L)} {v : ℕ}
    {r : Region} (h : discFits k r) : (l.restrict full v r).point = none := by
  obtain ⟨s, rfl, _⟩ := h
  unfold Leaf.restrict
  cases (pathMap full l.path).lookup v with
  | none => rfl
  | some R => cases R <;> rfl

/-- The evidence on asked variables is seen: within a leaf that the evidence can reach, the variable
is on the path, or its evidence is certain. -/
def Seen (P : D → Region → ℚ) (h : Heap D) (vs : List ℕ) (e : Query) : Prop :=
  ∀ l ∈ h.leaves, leafProb P l.2 e ≠ 0 → ∀ v ∈ vs, ∀ r, e.lookup v = some r →
    v ∈ l.2.path.map Prod.fst ∨ ∀ d, l.2.dists[v]? = some d → P d r = 1

/-- The posterior of each asked variable is the mixture of the leaves' conditional distributions,
weighted by the priors and the probabilities of the evidence.  Missing: evidence on an asked variable
that is not on the path (`C46_violated_evidence`), and evidence at a single number. -/
theorem C46_posterior_partial (L : Laws o ok fits P) (hT : TreeOK ok fits P kind full n h) {vs : List ℕ}
    {e : Query} (he : QueryOK fits kind n e) (hvs : ∀ v ∈ vs, v < n)
    (hpt : ∀ l ∈ h.leaves, ∀ i ∈ e, (l.2.restrict full i.1 i.2).point = none)
    (hsee : Seen P h vs e) (hm : mass P h e ≠ 0) :
    ∃ ds, posterior o n full h vs e = .ok ds ∧
      List.Forall₂ (fun v b => b.1 = v ∧ ok (kind v) b.2 ∧ ∀ S, fits (kind v) S →
        P b.2 S = (h.leaves.map (fun l =>
          l.2.prior * leafProb P l.2 e * condProb P l.2 e v S)).sum / mass P h e) vs ds := by
  obtain ⟨ds, h1, h2⟩ := (posterior_eq L hT he hvs hpt hsee).2 hm
  refine ⟨ds, h1, h2.imp ?_⟩
  rintro v b ⟨h3, h4, h5⟩
  refine ⟨h3, h4, ?_⟩
  intro S hS
  rw [eq_div_iff hm, h5 S hS]
  congr 1
  apply List.map_congr_left
  intro l _
  rw [mul_assoc]

/-- Evidence with probability zero. -/
theorem C46_unsatisfiable (L : Laws o ok fits P) (hT : TreeOK ok fits P kind full n h) {vs : List ℕ}
    {e : Query} (he : QueryOK fits kind n e) (hvs : ∀ v ∈ vs, v < n)
    (hpt : ∀ l ∈ h.leaves, ∀ i ∈ e, (l.2.restrict full i.1 i.2).point = none)
    (hsee : Seen P h vs e) (hm : mass P h e = 0) :
    posterior o n full h vs e = .error .unsatisfiable :=
  (posterior_eq L hT he hvs hpt hsee).1 hm

/-- An evidence variable has all its mass on the evidence. -/
theorem C46_evidence_partial (L : Laws o ok fits P) (hT : TreeOK ok fits P kind full n h) {vs : List ℕ}
    {e : Query} (he : QueryOK fits kind n e) (hvs : ∀ v ∈ vs, v < n)
    (hpt : ∀ l ∈ h.leaves, ∀ i ∈ e, (l.2.restrict full i.1 i.2).point = none)
    (hsee : Seen P h vs e) (hm : mass P h e ≠ 0) :
    ∃ ds, posterior o n full h vs e = .ok ds ∧ List.Forall₂ (fun v b => b.1 = v ∧
      ∀ r, e.lookup v = some r → P b.2 r = 1) vs ds := by
  obtain ⟨ds, h1, h2⟩ := C46_posterior_partial L hT he hvs hpt hsee hm
  refine ⟨ds, h1, h2.imp ?_⟩
  rintro v b ⟨h3, _, h5⟩
  refine ⟨h3, ?_⟩
  intro r hr
  have hmem := Dict.lookup_mem hr
  have hfit := (he.2 _ hmem).2.1
  rw [h5 r hfit, div_eq_one_iff_eq hm]
  unfold mass
  congr 1
  apply List.map_congr_left
  intro l hl
  by_cases hz : leafProb P l.2 e = 0
  · rw [hz]; simp
  · have hone : condProb P l.2 e v r = 1 := by
      have hv := (he.2 _ hmem).1
      have hlen := (hT.dists l hl).1
      have hd : l.2.dists[v]? = some (l.2.dists[v]'(by omega)) := List.getElem?_eq_getElem _
      unfold condProb
      rw [hd, hr]
      simp only
      have hok := (hT.dists l hl).2 v _ hd
      have hne : P (l.2.dists[v]'(by omega)) r ≠ 0 := by
        intro h0
        apply hz
        unfold leafProb
        apply prod_zero
        refine List.mem_map.2 ⟨(v, r), hmem, ?_⟩
        simp only [hd]
        exact h0
      rw [L.ext _ _ _ r hok (L.inter _ _ _ hfit hfit) hfit (fun x => by
        rw [Region.mem_inter, and_self]), div_self hne]
    rw [hone, mul_one]

theorem forall₂_mem {α β : Type} {R : α → β → Prop} {l : List α} {r : List β} (h : List.Forall₂ R l r) :
    List.Forall₂ (fun a b => R a b ∧ a ∈ l) l r := by
  induction h with
  | nil => exact .nil
  | cons h1 _ ih =>
    exact .cons ⟨h1, List.mem_cons_self⟩ (ih.imp fun a b hab => ⟨hab.1, List.mem_cons_of_mem _ hab.2⟩)

/-- For all trees learned over symbolic and integer variables: variables without evidence. -/
theorem C46_learned {L : Type} [DecidableEq L] (c : Cfg) (kind : ℕ → Bool × Disc.Dom L) (data : Data)
    (total : ℕ) (hk : Discrete c kind) (hdata : DataOK c data total) (h : Heap (DD L))
    (hl : learn c data total (fitDisc kind data) = .ok h) (vs : List ℕ) (e : Query)
    (hvs : ∀ v ∈ vs, v < c.vars.length ∧ e.lookup v = none)
    (he : QueryOK discFits kind c.vars.length e) (hm : mass discP h e ≠ 0) :
    ∃ ds, posterior (discOps L) c.vars.length (fullOf c) h vs e = .ok ds ∧
      List.Forall₂ (fun v b => b.1 = v ∧ discOk (kind v) b.2 ∧ ∀ S, discFits (kind v) S →
        discP b.2 S = mass discP h ((v, S) :: e) / mass discP h e) vs ds := by
  have hT := learned_ok hk hdata hl
  obtain ⟨ds, h1, h2⟩ := C46_posterior_partial disc_laws hT he (fun v hv => (hvs v hv).1)
    (fun l _ i hi => fits_point (he.2 i hi).2.1)
    (fun l _ _ v hv r hr => by rw [(hvs v hv).2] at hr; cases hr) hm
  refine ⟨ds, h1, ?_⟩
  have h3 : List.Forall₂ (fun v b => (b.1 = v ∧ discOk (kind v) b.2 ∧ ∀ S, discFits (kind v) S →
        discP b.2 S = (h.leaves.map (fun l =>
          l.2.prior * leafProb discP l.2 e * condProb discP l.2 e v S)).sum / mass discP h e) ∧
        v ∈ vs) vs ds := by
    exact forall₂_mem h2
  refine h3.imp ?_
  rintro v b ⟨⟨h4, h5, h6⟩, hv⟩
  refine ⟨h4, h5, fun S hS => ?_⟩
  rw [h6 S hS]
  congr 1
  unfold mass
  congr 1
  apply List.map_congr_left
  intro l hl
  unfold condProb leafProb
  rw [List.map_cons, List.prod_cons]
  have hlen := (hT.dists l hl).1
  obtain ⟨d, hd⟩ : ∃ d, l.2.dists[v]? = some d :=
    ⟨_, List.getElem?_eq_getElem (by have := (hvs v hv).1; omega)⟩
  rw [hd, (hvs v hv).2]
  simp only
  ring

/-- Evidence on a variable that is not on the path of a leaf does not change its distribution there:
the posterior of an evidence variable can have mass outside the evidence. -/
theorem C46_violated_evidence : ∃ (c : Cfg) (kind : ℕ → Bool × Disc.Dom ℤ) (data : Data) (total : ℕ)
    (h : Heap (DD ℤ)) (e : Query) (v : ℕ) (r : Region) (b : DD ℤ), Discrete c kind ∧ DataOK c data total ∧
    learn c data total (fitDisc kind data) = .ok h ∧ QueryOK discFits kind c.vars.length e ∧
    mass discP h e ≠ 0 ∧ e.lookup v = some r ∧
    posterior (discOps ℤ) c.vars.length (fullOf c) h [v] e = .ok [(v, b)] ∧ discP b r = 1 / 3 := by
  obtain ⟨h, h1, h2, h3⟩ : ∃ h, exLearn exB = .ok h ∧ (mass discP h [(1, .set [0])] ≠ 0 ∧
      posterior (discOps ℤ) 2 (fullOf (exB.cfg 6)) h [1] [(1, .set [0])]
        = .ok [(1, (true, ⟨⟨"N", [1, 2, 3]⟩, [1/3, 1/3, 1/3]⟩))]) := exists_ok (by decide +kernel)
  exact ⟨exB.cfg 6, exKind, exData, 6, h, [(1, .set [0])], 1, .set [0], _, exB_kind, exB_data, h1,
    queryCheck_ok (by decide), h2, rfl, h3, by decide +kernel⟩

example : ∃ h, exLearn exA = .ok h ∧
    posterior (discOps ℤ) 2 (fullOf (exA.cfg 6)) h [0, 1] [(0, .set [1])]
      = .ok [(0, (false, ⟨⟨"W", [10, 20]⟩, [0, 1]⟩)), (1, (true, ⟨⟨"N", [1, 2, 3]⟩, [0, 1/3, 2/3]⟩))] ∧
    (∀ l ∈ h.leaves, 0 ∈ l.2.path.map Prod.fst) := exists_ok (by decide +kernel)

end Verif.Trees
