import Verif.Trees.ExpectLemmas

/-!
# C85: expectations and moments of a tree

The trees are those learned over symbolic and integer variables.  `labelProb` is the probability of a label, given the
evidence: the quotient of two probabilities of queries.
-/

namespace Verif.Trees

open Disc
open Learn (Cfg Data DataOK learn exists_ok fullOf)

variable {L : Type} [DecidableEq L] {c : Cfg} {kind : ℕ → Bool × Dom L} {data : Data} {total : ℕ}

theorem posterior?_learned (hk : Discrete c kind) (hdata : DataOK c data total) {h : Heap (DD L)}
    (hl : learn c data total (fitDisc kind data) = .ok h) {vs : List ℕ} {e : Query}
    (hvs : ∀ v ∈ vs, v < c.vars.length ∧ e.lookup v = none) (he : QueryOK discFits kind c.vars.length e) (fail : Bool) :
    (mass discP h e = 0 → posterior? c.vars.length (fullOf c) h vs e fail =
      if fail then .error .unsatisfiable else .ok none) ∧
    (mass discP h e ≠ 0 → ∃ ds, posterior? c.vars.length (fullOf c) h vs e fail = .ok (some ds) ∧
      List.Forall₂ (fun v b => (b.1 = v ∧ discOk (kind v) b.2 ∧ ∀ x ∈ (kind v).2.labels,
        discP b.2 (.set [(((kind v).2.labels.idxOf x : ℕ) : ℤ)]) = labelProb kind h e v x) ∧ v ∈ vs) vs ds) := by
  constructor
  · intro hm
    have := C46_unsatisfiable disc_laws (learned_ok hk hdata hl) he (fun v hv => (hvs v hv).1)
      (fun l _ i hi => fits_point (he.2 i hi).2.1)
      (fun l _ _ v hv r hr => by rw [(hvs v hv).2] at hr; cases hr) hm
    simp only [posterior?, this]
  · intro hm
    obtain ⟨ds, h1, h2⟩ := C46_learned c kind data total hk hdata h hl vs e hvs he hm
    refine ⟨ds, by simp only [posterior?, h1], ?_⟩
    refine (forall₂_mem h2).imp ?_
    rintro v b ⟨⟨h3, h4, h5⟩, hv⟩
    exact ⟨⟨h3, h4, fun x hx => h5 _ (fits_label hx)⟩, hv⟩

/-- The expectations of variables without evidence: for an integer variable the sum of its labels, weighted with their
conditional probabilities; for a symbolic variable the labels with the greatest conditional probability.

Partial: the full claim includes numeric variables and variables with evidence; for the latter see
`C85_violated_evidence`. -/
theorem C85_expectation_partial (hk : Discrete c kind) (hdata : DataOK c data total) {h : Heap (DD L)}
    (hl : learn c data total (fitDisc kind data) = .ok h) (num : L → ℚ) (vs : List ℕ) (hne : vs ≠ []) (e : Query)
    (hvs : ∀ v ∈ vs, v < c.vars.length ∧ e.lookup v = none) (he : QueryOK discFits kind c.vars.length e)
    (hm : mass discP h e ≠ 0) (fail : Bool) :
    ∃ rs, expectation num c.vars.length (fullOf c) h (some vs) e fail = .ok (some rs) ∧
      List.Forall₂ (fun v b => b.1 = v ∧
        ((kind v).1 = true →
          b.2 = .inl ((kind v).2.labels.map (fun x => num x * labelProb kind h e v x)).sum) ∧
        ((kind v).1 = false → ∃ S, b.2 = .inr (.set S) ∧ S ≠ [] ∧ ∀ x, x ∈ S ↔
          x ∈ (kind v).2.labels ∧ ∀ y ∈ (kind v).2.labels, labelProb kind h e v y ≤ labelProb kind h e v x)) vs rs := by
  obtain ⟨ds, h1, h2⟩ := (posterior?_learned hk hdata hl hvs he fail).2 hm
  have hasked : askedVars c.vars.length (some vs) e = vs := by
    unfold askedVars
    cases vs with
    | nil => exact absurd rfl hne
    | cons a l => rfl
  obtain ⟨rs, h3, h4⟩ := forall₂_mapM (Q := fun v b => b.1 = v ∧
        ((kind v).1 = true →
          b.2 = .inl ((kind v).2.labels.map (fun x => num x * labelProb kind h e v x)).sum) ∧
        ((kind v).1 = false → ∃ S, b.2 = .inr (.set S) ∧ S ≠ [] ∧ ∀ x, x ∈ S ↔
          x ∈ (kind v).2.labels ∧ ∀ y ∈ (kind v).2.labels, labelProb kind h e v y ≤ labelProb kind h e v x))
    (fun b => do
      let x ← expectationOf num b.2
      return (b.1, x)) h2 (by
    rintro v ⟨v', b⟩ ⟨⟨rfl, hb, hp⟩, -⟩
    simp only at hb hp
    unfold expectationOf
    cases hb1 : (kind v').1 with
    | true =>
      rw [if_pos (by rw [hb.1, hb1])]
      refine ⟨_, rfl, rfl, fun _ => ?_, fun h => by cases h⟩
      simp only
      rw [mean_labels hb]
      congr 2
      apply List.map_congr_left
      intro x hx
      rw [hp x hx]
    | false =>
      rw [if_neg (by rw [hb.1, hb1]; simp)]
      obtain ⟨S, p, h5, h6, h7, h8, h9, -⟩ := C30_mpe b.2 hb.2.2
      rw [h5]
      refine ⟨_, rfl, rfl, (fun hh => by cases hh), fun _ => ⟨S, rfl, h9, fun x => ?_⟩⟩
      rw [hb.2.1] at h7
      have hPx : ∀ x ∈ (kind v').2.labels, b.2.P (fun m => m = x) = labelProb kind h e v' x := fun x hx => by
        rw [discP_P hb hx, hp x hx]
      rw [h8 x, hb.2.1]
      constructor
      · rintro ⟨hx, hpx⟩
        refine ⟨hx, fun y hy => ?_⟩
        rw [← hPx x hx, hpx, ← hPx y hy]
        exact h7 y hy
      · rintro ⟨hx, hmax⟩
        refine ⟨hx, le_antisymm (h7 x hx) ?_⟩
        obtain ⟨z, hz⟩ := List.exists_mem_of_ne_nil S h9
        obtain ⟨hz1, hz2⟩ := (h8 z).1 hz
        rw [hb.2.1] at hz1
        rw [← hz2, hPx x hx, hPx z hz1]
        exact hmax z hz1)
  refine ⟨rs, ?_, h4⟩
  unfold expectation
  rw [hasked, h1]
  simp only [bind, Except.bind, pure, Except.pure] at h3 ⊢
  rw [h3]

/-- If the evidence has probability zero, an `Unsatisfiability` is raised, or `None` returned. -/
theorem C85_unsatisfiable (hk : Discrete c kind) (hdata : DataOK c data total) {h : Heap (DD L)}
    (hl : learn c data total (fitDisc kind data) = .ok h) (num : L → ℚ) (vs : List ℕ) (hne : vs ≠ []) (e : Query)
    (hvs : ∀ v ∈ vs, v < c.vars.length ∧ e.lookup v = none) (he : QueryOK discFits kind c.vars.length e)
    (hm : mass discP h e = 0) :
    expectation num c.vars.length (fullOf c) h (some vs) e true = .error .unsatisfiable ∧
      expectation num c.vars.length (fullOf c) h (some vs) e false = .ok none := by
  have hasked : askedVars c.vars.length (some vs) e = vs := by
    unfold askedVars
    cases vs with
    | nil => exact absurd rfl hne
    | cons a l => rfl
  constructor <;> unfold expectation <;> rw [hasked, (posterior?_learned hk hdata hl hvs he _).1 hm] <;> rfl

/-- The moments of the integer variables, about centers that are given as numbers, and about 0 by default.

Partial: the full claim includes numeric variables, evidence on integer variables and centers given as labels; for the
latter see `C85_violated_center`. -/
theorem C85_moment_partial (hk : Discrete c kind) (hdata : DataOK c data total) {h : Heap (DD L)}
    (hl : learn c data total (fitDisc kind data) = .ok h) (num : L → ℚ) (order : ℕ) (center : List (ℕ × ℚ)) (e : Query)
    (he : QueryOK discFits kind c.vars.length e) (hsym : ∀ i ∈ e, (kind i.1).1 = false) (fail : Bool) :
    (mass discP h e = 0 → moment num kind c.vars.length (fullOf c) h order (.numbers center) e fail =
      if fail then .error .unsatisfiable else .ok none) ∧
    (mass discP h e ≠ 0 → ∃ rs,
      moment num kind c.vars.length (fullOf c) h order (.numbers center) e fail = .ok (some rs) ∧
      List.Forall₂ (fun v b => b.1 = v ∧
          b.2 = ((kind v).2.labels.map (fun x =>
            (num x - (center.lookup v).getD 0) ^ order * labelProb kind h e v x)).sum)
        ((List.range c.vars.length).filter (fun v => (kind v).1)) rs) := by
  have hvs : ∀ v ∈ (List.range c.vars.length).filter (fun v => (kind v).1), v < c.vars.length ∧ e.lookup v = none := by
    intro v hv
    obtain ⟨h1, h2⟩ := List.mem_filter.1 hv
    refine ⟨List.mem_range.1 h1, ?_⟩
    cases hlk : e.lookup v with
    | none => rfl
    | some r =>
      have := hsym _ (Dict.lookup_mem hlk)
      simp only at this h2
      rw [this] at h2
      cases h2
  obtain ⟨h0, h1⟩ := posterior?_learned hk hdata hl hvs he fail
  constructor
  · intro hm
    unfold moment
    rw [h0 hm]
    cases fail <;> rfl
  · intro hm
    obtain ⟨ds, h2, h3⟩ := h1 hm
    have hcs : ∀ v, centerAt (center.map (fun i => (i.1, Arg.atom i.2))) v = .ok ((center.lookup v).getD 0) := by
      intro v
      unfold centerAt
      have : (center.map (fun i => (i.1, Arg.atom i.2))).lookup v = (center.lookup v).map Arg.atom := by
        clear hsym
        induction center with
        | nil => rfl
        | cons a l ih =>
          obtain ⟨a1, a2⟩ := a
          simp only [List.map_cons, List.lookup_cons]
          cases v == a1 with
          | true => rfl
          | false => exact ih
      rw [this]
      cases center.lookup v <;> rfl
    obtain ⟨rs, h4, h5⟩ := forall₂_mapM (Q := fun v b => b.1 = v ∧
          b.2 = ((kind v).2.labels.map (fun x =>
            (num x - (center.lookup v).getD 0) ^ order * labelProb kind h e v x)).sum)
      (fun b => do
        let c ← centerAt (center.map (fun i => (i.1, Arg.atom i.2))) b.1
        return (b.1, momentOf num b.2.2 order c)) h3 (by
      rintro v ⟨v', b⟩ ⟨⟨rfl, hb, hp⟩, -⟩
      simp only at hb hp
      simp only [hcs]
      refine ⟨_, rfl, rfl, ?_⟩
      simp only
      rw [moment_labels hb]
      congr 1
      apply List.map_congr_left
      intro x hx
      rw [hp x hx])
    refine ⟨rs, ?_, h5⟩
    unfold moment
    rw [h2]
    simp only [bind, Except.bind, pure, Except.pure, Center.values] at h4 ⊢
    rw [h4]

omit [DecidableEq L] in
theorem total_pos {h : Heap (DD L)} (hl : learn c data total (fitDisc kind data) = .ok h) : 0 < total := by
  rcases Nat.eq_zero_or_pos total with rfl | h0
  · rw [Learn.C40_no_data] at hl
    cases hl
  · exact h0

omit [DecidableEq L] in
theorem priors_one (hdata : DataOK c data total) {h : Heap (DD L)}
    (hl : learn c data total (fitDisc kind data) = .ok h) : (h.leaves.map (fun l => l.2.prior)).sum = 1 := by
  obtain ⟨h', h1, -, -, -, h2⟩ := Learn.C40_partition c data total (fitDisc kind data) hdata (total_pos hl)
  rw [hl] at h1
  cases h1
  exact h2

/-- Without evidence a learned tree gives every set of values of a single variable the probability that is its share of
the training rows. -/
theorem C85_frequency (hk : Discrete c kind) (hdata : DataOK c data total) {h : Heap (DD L)}
    (hl : learn c data total (fitDisc kind data) = .ok h) (v : ℕ) (hv : v < c.vars.length) (S : Region)
    (hS : discFits (kind v) S ∧ S.OK) (fail : Bool) :
    infer (discOps L) c.vars.length (fullOf c) h [(v, S)] [] fail =
      .ok (some (((List.range total).countP (fun r => decide (S.Mem (.fin (data r v)))) : ℚ) / total)) := by
  rw [C45_infer_prior disc_laws.toPLaws (learned_ok hk hdata hl) ⟨by simp, by
    intro i hi
    simp only [List.mem_singleton] at hi
    subst hi
    exact ⟨hv, hS⟩⟩ fail (priors_one hdata hl), learned_marginal hk hdata hl hv]

/-- Averages over the labels of a column, without evidence. -/
theorem average_learned (hk : Discrete c kind) (hdata : DataOK c data total) {h : Heap (DD L)}
    (hl : learn c data total (fitDisc kind data) = .ok h) {v : ℕ} (hv : v < c.vars.length) (lab : ℕ → L)
    (hlab : ∀ r < total, lab r ∈ (kind v).2.labels ∧ data r v = ((kind v).2.labels.idxOf (lab r) : ℚ)) (f : L → ℚ) :
    mass discP h [] = 1 ∧ ((kind v).2.labels.map (fun x => f x * labelProb kind h [] v x)).sum =
      ((List.range total).map (fun r => f (lab r))).sum / total := by
  have h1 : mass discP h [] = 1 := by
    rw [← priors_one hdata hl]
    unfold mass leafProb
    simp
  refine ⟨h1, ?_⟩
  rw [← sum_count (kind v).2.labels (hk v hv).1 f lab (List.range total) (fun r hr => (hlab r (List.mem_range.1 hr)).1),
    div_eq_mul_inv, ← List.sum_map_mul_right]
  congr 1
  apply List.map_congr_left
  intro x hx
  rw [labelProb, h1, div_one, learned_marginal hk hdata hl hv, div_eq_mul_inv, mul_assoc]
  congr 3
  apply List.countP_congr
  intro r hr
  obtain ⟨h2, h3⟩ := hlab r (List.mem_range.1 hr)
  rw [h3, decide_eq_true_iff, decide_eq_true_iff, mem_set_nat]
  simp only [List.mem_singleton, Nat.cast_inj]
  constructor
  · intro h4
    exact (List.idxOf_inj h2).1 h4
  · rintro rfl
    rfl

/-- Without evidence the expectation of an integer variable is the mean of its column in the training data. -/
theorem C85_training_mean (hk : Discrete c kind) (hdata : DataOK c data total) {h : Heap (DD L)}
    (hl : learn c data total (fitDisc kind data) = .ok h) (num : L → ℚ) (v : ℕ) (hv : v < c.vars.length)
    (hint : (kind v).1 = true) (lab : ℕ → L)
    (hlab : ∀ r < total, lab r ∈ (kind v).2.labels ∧ data r v = ((kind v).2.labels.idxOf (lab r) : ℚ)) (fail : Bool) :
    expectation num c.vars.length (fullOf c) h (some [v]) [] fail =
      .ok (some [(v, .inl (((List.range total).map (fun r => num (lab r))).sum / total))]) := by
  obtain ⟨h1, h2⟩ := average_learned hk hdata hl hv lab hlab num
  obtain ⟨rs, h3, h4⟩ := C85_expectation_partial hk hdata hl num [v] (by simp) [] (by
    intro w hw
    simp only [List.mem_singleton] at hw
    subst hw
    exact ⟨hv, rfl⟩) ⟨by simp, by simp⟩ (by rw [h1]; exact one_ne_zero) fail
  rw [h3]
  obtain ⟨b, rs', ⟨h5, h6, -⟩, h7, rfl⟩ := List.forall₂_cons_left_iff.1 h4
  obtain rfl := List.forall₂_nil_left_iff.1 h7
  obtain ⟨b1, b2⟩ := b
  simp only at h5 h6
  subst h5
  rw [h6 hint, h2]

/-- Without evidence the moments of an integer variable are those of its column in the training data. -/
theorem C85_training_moment (hk : Discrete c kind) (hdata : DataOK c data total) {h : Heap (DD L)}
    (hl : learn c data total (fitDisc kind data) = .ok h) (num : L → ℚ) (order : ℕ) (center : List (ℕ × ℚ)) (v : ℕ)
    (hv : v < c.vars.length) (hint : (kind v).1 = true) (lab : ℕ → L)
    (hlab : ∀ r < total, lab r ∈ (kind v).2.labels ∧ data r v = ((kind v).2.labels.idxOf (lab r) : ℚ)) (fail : Bool) :
    ∃ rs, moment num kind c.vars.length (fullOf c) h order (.numbers center) [] fail = .ok (some rs) ∧
      (v, ((List.range total).map (fun r => (num (lab r) - (center.lookup v).getD 0) ^ order)).sum / total) ∈ rs := by
  obtain ⟨h1, h2⟩ := average_learned hk hdata hl hv lab hlab (fun x => (num x - (center.lookup v).getD 0) ^ order)
  obtain ⟨rs, h3, h4⟩ := (C85_moment_partial hk hdata hl num order center [] ⟨by simp, by simp⟩ (by simp) fail).2
    (by rw [h1]; exact one_ne_zero)
  refine ⟨rs, h3, ?_⟩
  obtain ⟨b, hb, h5, h6⟩ := forall₂_left' h4 (a := v) (List.mem_filter.2 ⟨List.mem_range.2 hv, hint⟩)
  obtain ⟨b1, b2⟩ := b
  simp only at h5 h6
  subst h5
  rw [← h2, ← h6]
  exact hb

/-- The variables of the result: by default all of them, and for an empty list those without evidence. -/
theorem C85_default (num : L → ℚ) (n : ℕ) (full : ℕ → Region) (h : Heap (DD L)) (e : Query) (fail : Bool) :
    expectation num n full h none e fail = expectation num n full h (some (List.range n)) e fail ∧
    ((∃ v < n, v ∉ e.map Prod.fst) → expectation num n full h (some []) e fail =
      expectation num n full h (some ((List.range n).filter (fun v => decide (v ∉ e.map Prod.fst)))) e fail) := by
  constructor
  · rfl
  · rintro ⟨v, hv, hve⟩
    have h1 : (List.range n).filter (fun v => !(e.map Prod.fst).contains v) =
        (List.range n).filter (fun v => decide (v ∉ e.map Prod.fst)) := by
      apply List.filter_congr
      intro w _
      by_cases hw : w ∈ e.map Prod.fst <;> simp [hw]
    have h2 : askedVars n (some ((List.range n).filter (fun v => decide (v ∉ e.map Prod.fst)))) e =
        (List.range n).filter (fun v => decide (v ∉ e.map Prod.fst)) := by
      unfold askedVars
      simp only [Option.getD_some]
      cases hf : (List.range n).filter (fun v => decide (v ∉ e.map Prod.fst)) with
      | nil =>
        have : v ∈ (List.range n).filter (fun v => decide (v ∉ e.map Prod.fst)) := by
          simp only [List.mem_filter, List.mem_range, decide_eq_true_eq]
          exact ⟨hv, hve⟩
        rw [hf] at this
        cases this
      | cons a l => rfl
    unfold expectation
    rw [h2]
    have h3 : askedVars n (some []) e = (List.range n).filter (fun v => decide (v ∉ e.map Prod.fst)) := h1
    rw [h3]

instance decResults : DecidableEq (List (ℕ × (ℚ ⊕ Arg ℤ))) := inferInstance

/-- The mean of the integers 1, 1, 2, 3, 3, 2, and their variance; given the first label, the mean of 1, 1, 2. -/
example : ∃ h, exLearn exA = .ok h ∧
    expectation (fun x : ℤ => (x : ℚ)) 2 (fullOf (exA.cfg 6)) h (some [1]) [] true = .ok (some [(1, .inl 2)]) ∧
    moment (fun x : ℤ => (x : ℚ)) exKind 2 (fullOf (exA.cfg 6)) h 2 (.numbers [(1, 2)]) [] true =
      .ok (some [(1, 2 / 3)]) ∧
    expectation (fun x : ℤ => (x : ℚ)) 2 (fullOf (exA.cfg 6)) h (some []) [(0, .set [0])] true =
      .ok (some [(1, .inl (4 / 3))]) ∧
    expectation (fun x : ℤ => (x : ℚ)) 2 (fullOf (exA.cfg 6)) h (some [0]) [(1, .set [2])] true =
      .ok (some [(0, .inr (.set [20]))]) ∧
    expectation (fun x : ℤ => (x : ℚ)) 2 (fullOf (exA.cfg 6)) h (some [0]) [(1, .set [])] false = .ok none :=
  exists_ok (by decide +kernel)

/-- The theorem on the mean applies to this tree. -/
example {h : Heap (DD ℤ)} (hl : exLearn exA = .ok h) :
    expectation (fun x : ℤ => (x : ℚ)) 2 (fullOf (exA.cfg 6)) h (some [1]) [] true = .ok (some [(1, .inl 2)]) := by
  have := C85_training_mean exA_kind exA_data hl (fun x : ℤ => (x : ℚ)) 1 (by decide) rfl
    (fun r => ([1, 1, 2, 3, 3, 2] : List ℤ).getD r 1) (by decide +kernel) true
  refine this.trans ?_
  congr 5
  decide +kernel

/-- The documentation says that the expectations of all variables without evidence are computed if no variables are
given; those of the evidence variables are computed, too. -/
theorem C85_violated_default : ∃ h, exLearn exA = .ok h ∧
    expectation (fun x : ℤ => (x : ℚ)) 2 (fullOf (exA.cfg 6)) h none [(0, .set [1])] true =
      .ok (some [(0, .inr (.set [20])), (1, .inl (8 / 3))]) := exists_ok (by decide +kernel)

/-- Evidence on the variable itself is ignored if no split of the tree is on it: given that the variable is 1, its
expectation is 2. -/
theorem C85_violated_evidence : ∃ h, exLearn exB = .ok h ∧
    expectation (fun x : ℤ => (x : ℚ)) 2 (fullOf (exB.cfg 6)) h (some [1]) [(1, .set [0])] true = .ok (some [(1, .inl 2)]) :=
  exists_ok (by decide +kernel)

/-- A center that is given as a label is replaced by its internal value: the first moment about the mean, 2, should be 0,
but is 1.  If it is given as a set, as `bind` does, a `TypeError` is raised. -/
theorem C85_violated_center : ∃ h, exLearn exA = .ok h ∧
    moment (fun x : ℤ => (x : ℚ)) exKind 2 (fullOf (exA.cfg 6)) h 1 (.numbers [(1, 2)]) [] true = .ok (some [(1, 0)]) ∧
    moment (fun x : ℤ => (x : ℚ)) exKind 2 (fullOf (exA.cfg 6)) h 1 (.labels [(1, .atom 2)]) [] true = .ok (some [(1, 1)]) ∧
    moment (fun x : ℤ => (x : ℚ)) exKind 2 (fullOf (exA.cfg 6)) h 1 (.labels [(1, .set [2])]) [] true = .error .typeError :=
  exists_ok (by decide +kernel)

end Verif.Trees
