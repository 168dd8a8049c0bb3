import Verif.Trees.EqualLemmas
import Verif.Trees.Likelihood
import Verif.Trees.Props22

/-!
# C110: what it means that two trees compare equal
-/

namespace Verif.Trees

open Iv (FP CS Br NS)
open Fun (PF)
open Learn (Cfg Data DataOK fullOf learn exists_ok)

variable {D L : Type} [DecidableEq L]

/-- Two fitted trees compare equal if and only if they have the same nodes under the same numbers: the same parents, children,
splits, variables and samples of the inner nodes, the same paths, samples and priors of the leaves, and equal distributions. -/
theorem C110_equal_iff (idx : ℚ → ℤ) (deq : D → D → Except Err Bool) (h h' : Heap D) (priors priors' : List (ℕ × D))
    (hs : Shape h) (hs' : Shape h') (hf : Full h) (hf' : Full h') (hr : RegularTree idx h) (hr' : RegularTree idx h')
    (hp : (priors.map Prod.fst).Nodup) (hp' : (priors'.map Prod.fst).Nodup) :
    treeEq idx deq h h' priors priors' = .ok true ↔
      SameTree idx (fun d e => deq d e = .ok true) h h' priors priors' :=
  treeEq_iff hs hs' hf hf' hr hr' hp hp'

instance (idx : ℚ → ℤ) (r : Region) : Decidable (RegularRegion idx r) := by
  cases r <;> unfold RegularRegion <;> unfold CS.WF CS.Reg <;> infer_instance

example : ∃ h, learn (exM.cfg 6) exMData 6 (fitMix Fun.ival Rat.floor (1 / 100) exMKind exMData) = .ok h ∧
    1 < h.leaves.length ∧ Shape h ∧ Full h ∧ RegularTree Rat.floor h := by
  obtain ⟨h, h1, h2, h3, h4⟩ : ∃ h, learn (exM.cfg 6) exMData 6 (fitMix Fun.ival Rat.floor (1 / 100) exMKind exMData) = .ok h ∧
    (1 < h.leaves.length ∧ (∀ p ∈ h.inner, ∀ s ∈ p.2.splits, RegularRegion Rat.floor s) ∧
      (∀ p ∈ h.leaves, ∀ s ∈ p.2.path, RegularRegion Rat.floor s.2)) := exists_ok (by decide +kernel)
  have hT := learned_mix_on Fun.ival_strictMono (fun n => by simp [Fun.ival]) exM_kind exM_data exM_floats h1
  exact ⟨h, h1, h2, hT.shape, hT.noNone, h3, h4⟩

theorem mixEq_refl (d : MD L) : mixEq d d = .ok true := by
  cases d with
  | inl d => exact Fun.C19_reflexive d
  | inr d => simp [mixEq, discEq]

theorem regionEq_refl (idx : ℚ → ℤ) (r : Region) : regionEq idx r r = .ok true := by
  cases r <;> simp [regionEq, CS.eq]

theorem treeEq_refl (idx : ℚ → ℤ) (h : Heap (MD L)) (priors : List (ℕ × MD L)) (hs : Shape h) (hf : Full h)
    (hp : (priors.map Prod.fst).Nodup) : treeEq idx mixEq h h priors priors = .ok true := by
  have n1 := List.nodup_append.1 hs.nodup
  have hrel : ∀ {α : Type} {R : α → α → Prop} {x : Option α}, (∀ a, x = some a → R a a) → Option.Rel R x x := by
    intro α R x h
    cases x with
    | none => exact .none
    | some a => exact .some (h a rfl)
  have e1 : itemsEq (innerEq idx) h.inner h.inner = .ok true := by
    rw [itemsEq_iff n1.1 n1.1]
    intro k
    refine hrel fun n hn => ?_
    obtain ⟨l, hl, -⟩ := kids_ok (hf k n hn)
    have h3 : listEq (regionEq idx) n.splits n.splits = .ok true :=
      listEq_iff.2 (List.forall₂_same.2 fun s _ => regionEq_refl idx s)
    simp [innerEq, hl, h3, bind, Except.bind, pure, Except.pure]
  have e2 : itemsEq (leafEq idx mixEq) h.leaves h.leaves = .ok true := by
    rw [itemsEq_iff n1.2.1 n1.2.1]
    intro k
    refine hrel fun n hn => ?_
    have h3 : listEq (stepEq idx) n.path n.path = .ok true :=
      listEq_iff.2 (List.forall₂_same.2 fun s _ => by simp [stepEq, regionEq_refl])
    have h4 : listEq mixEq n.dists n.dists = .ok true :=
      listEq_iff.2 (List.forall₂_same.2 fun s _ => mixEq_refl s)
    simp [leafEq, h3, h4, bind, Except.bind, pure, Except.pure]
  have e3 : itemsEq mixEq priors priors = .ok true := by
    rw [itemsEq_iff hp hp]
    exact fun k => hrel fun d _ => mixEq_refl d
  simp [treeEq, e1, e2, e3, bind, Except.bind, pure, Except.pure]

theorem learnedPriors_nodup (n total : ℕ) (fit : List ℕ → ℕ → D) :
    ((learnedPriors n total fit).map Prod.fst).Nodup := by
  have : (learnedPriors n total fit).map Prod.fst = List.range n := by
    simp [learnedPriors, Function.comp_def]
  rw [this]
  exact List.nodup_range

/-- For all learned trees: a tree compares equal to itself, and to the tree that is read from its JSON form. -/
theorem C110_copy {val : ℤ → ℚ} (hval : StrictMono val) {idx : ℚ → ℤ} (hidx : ∀ n, idx (val n) = n) (rnd : ℚ → ℤ) (eps : ℚ)
    (c : Cfg) (kind : ℕ → MK L) (data : Data) (total : ℕ) (hk : Kinds c kind) (hdata : DataOK c data total)
    (hfl : Floats val c data total) (h : Heap (MD L)) (hl : learn c data total (fitMix val idx eps kind data) = .ok h) :
    ∃ h', copy (mixOps L val idx rnd) h = .ok h' ∧
      treeEq idx mixEq h h' (learnedPriors c.vars.length total (fitMix val idx eps kind data))
        (learnedPriors c.vars.length total (fitMix val idx eps kind data)) = .ok true := by
  have hT := learned_mix_on hval hidx hk hdata hfl hl
  exact ⟨h, C52_learned_mixed hval hidx rnd eps c kind data total hk hdata hfl h hl,
    treeEq_refl idx h _ hT.shape hT.noNone (learnedPriors_nodup _ _ _)⟩

example : ∃ h, learn (exM.cfg 6) exMData 6 (fitMix Fun.ival Rat.floor (1 / 100) exMKind exMData) = .ok h ∧
    1 < h.leaves.length ∧ ∃ h', copy (mixOps ℤ Fun.ival Rat.floor Rat.floor) h = .ok h' ∧
      treeEq Rat.floor mixEq h h' (learnedPriors 2 6 (fitMix Fun.ival Rat.floor (1 / 100) exMKind exMData))
        (learnedPriors 2 6 (fitMix Fun.ival Rat.floor (1 / 100) exMKind exMData)) = .ok true := by
  obtain ⟨h, h1, h2⟩ : ∃ h, learn (exM.cfg 6) exMData 6 (fitMix Fun.ival Rat.floor (1 / 100) exMKind exMData) = .ok h ∧
    1 < h.leaves.length := exists_ok (by decide +kernel)
  exact ⟨h, h1, h2, C110_copy Fun.ival_strictMono (fun n => by simp [Fun.ival]) _ _ _ exMKind _ _ exM_kind exM_data
    exM_floats h h1⟩

/-- The leaves of learned trees that compare equal have the same distributions and priors. -/
theorem learned_leaves {val : ℤ → ℚ} (hval : StrictMono val) {idx : ℚ → ℤ} (hidx : ∀ n, idx (val n) = n) {eps eps' : ℚ}
    {c c' : Cfg} {kind : ℕ → MK L} {data data' : Data} {total total' : ℕ} (hk : Kinds c kind) (hk' : Kinds c' kind)
    (hdata : DataOK c data total) (hdata' : DataOK c' data' total') (hfl : Floats val c data total)
    (hfl' : Floats val c' data' total') {h h' : Heap (MD L)}
    (hl : learn c data total (fitMix val idx eps kind data) = .ok h)
    (hl' : learn c' data' total' (fitMix val idx eps' kind data') = .ok h') {priors priors' : List (ℕ × MD L)}
    (heq : treeEq idx mixEq h h' priors priors' = .ok true) :
    (h.leaves.map (fun l => (l.2.prior, l.2.dists))).Perm (h'.leaves.map (fun l => (l.2.prior, l.2.dists))) := by
  have hT := learned_mix_on hval hidx hk hdata hfl hl
  have hT' := learned_mix_on hval hidx hk' hdata' hfl' hl'
  have n1 := List.nodup_append.1 hT.shape.nodup
  have n2 := List.nodup_append.1 hT'.shape.nodup
  have e2 : itemsEq (leafEq idx mixEq) h.leaves h'.leaves = .ok true := by
    unfold treeEq at heq
    cases h1 : itemsEq (innerEq idx) h.inner h'.inner with
    | error e => simp [h1, bind, Except.bind] at heq
    | ok a =>
      cases h2 : itemsEq (leafEq idx mixEq) h.leaves h'.leaves with
      | error e => simp [h1, h2, bind, Except.bind] at heq
      | ok b =>
        cases h3 : itemsEq mixEq priors priors' with
        | error e => simp [h1, h2, h3, bind, Except.bind] at heq
        | ok d =>
          simp only [h1, h2, h3, bind, Except.bind, pure, Except.pure, Except.ok.injEq, Bool.and_eq_true] at heq
          rw [heq.1.2]
  rw [itemsEq_iff n1.2.1 n2.2.1] at e2
  refine perm_of_rel (g := fun l : Leaf (MD L) => (l.prior, l.dists)) n1.2.1 n2.2.1 e2 ?_
  intro p hp q hq hpq
  have hd : List.Forall₂ (fun d e => mixEq d e = .ok true) p.2.dists q.2.dists ∧ p.2.prior = q.2.prior := by
    unfold leafEq at hpq
    cases h1 : listEq (stepEq idx) p.2.path q.2.path with
    | error e => simp [h1, bind, Except.bind] at hpq
    | ok a =>
      cases a with
      | false => simp [h1, bind, Except.bind, pure, Except.pure] at hpq
      | true =>
        by_cases h2 : p.2.samples = q.2.samples
        · cases h3 : listEq mixEq p.2.dists q.2.dists with
          | error e => simp [h1, h2, h3, bind, Except.bind] at hpq
          | ok b =>
            cases b with
            | false => simp [h1, h2, h3, bind, Except.bind, pure, Except.pure] at hpq
            | true =>
              simp [h1, h2, h3, bind, Except.bind, pure, Except.pure] at hpq
              exact ⟨listEq_iff.1 h3, hpq⟩
        · simp [h1, h2, bind, Except.bind, pure, Except.pure] at hpq
  simp only [Prod.mk.injEq]
  refine ⟨hd.2, List.ext_getElem? fun v => ?_⟩
  have hlen := hd.1.length_eq
  cases hv : p.2.dists[v]? with
  | none =>
    rw [List.getElem?_eq_none_iff] at hv
    rw [List.getElem?_eq_none_iff.2 (by omega)]
  | some d =>
    obtain ⟨hlt, hd1⟩ := List.getElem?_eq_some_iff.1 hv
    have hlt' : v < q.2.dists.length := by omega
    have hv' : q.2.dists[v]? = some q.2.dists[v] := List.getElem?_eq_getElem hlt'
    have heq' : mixEq d q.2.dists[v] = .ok true := by
      have := hd.1.get hlt hlt'
      simpa [hd1] using this
    have ok1 := (hT.dists p hp).2 v d hv
    have ok2 := (hT'.dists q hq).2 v _ hv'
    have l1 : v < c.vars.length := by rw [← (hT.dists p hp).1]; exact hlt
    have l2 : v < c'.vars.length := by rw [← (hT'.dists q hq).1]; exact hlt'
    rw [hv', Option.some.injEq]
    generalize q.2.dists[v] = e at *
    cases hkd : kind v with
    | inr k =>
      rw [hkd] at ok1 ok2
      cases d with
      | inl d => exact ok1.elim
      | inr d =>
        cases e with
        | inl e => exact ok2.elim
        | inr e =>
          obtain ⟨a1, a2⟩ : d.1 = k.1 ∧ d.2.dom = k.2 := ⟨ok1.1, ok1.2.1⟩
          obtain ⟨b1, b2⟩ : e.1 = k.1 ∧ e.2.dom = k.2 := ⟨ok2.1, ok2.2.1⟩
          have hpar : d.2.params = e.2.params := by
            simp only [mixEq, discEq] at heq'
            split at heq'
            · simpa using heq'
            · simp at heq'
          obtain ⟨d1, dd, dp⟩ := d
          obtain ⟨e1, ed, ep⟩ := e
          simp_all
    | inl u =>
      obtain ⟨ne1, f1⟩ := learned_fitted hval hidx hk hdata hfl hl p hp
      obtain ⟨ne2, f2⟩ := learned_fitted hval hidx hk' hdata' hfl' hl' q hq
      obtain ⟨d', g1, g2⟩ := f1 v l1 hkd
      obtain ⟨e', g3, g4⟩ := f2 v l2 hkd
      rw [hv, Option.some.injEq] at g1
      rw [hv', Option.some.injEq] at g3
      subst g1 g3
      rw [fit_eq_inj hval (by simpa using ne1) (by simpa using ne2) g2 g4 heq']

theorem mapM_perm {α β : Type} {f : α → Except Err β} {l l' : List α} (hp : l.Perm l') :
    ∀ {r : List β}, l.mapM f = .ok r → ∃ r', l'.mapM f = .ok r' ∧ r.Perm r' := by
  induction hp with
  | nil => intro r h; exact ⟨r, h, .refl _⟩
  | cons x _ ih =>
    intro r h
    rw [mapM_ok_iff] at h
    cases h with
    | cons h1 h2 =>
      obtain ⟨r', h3, h4⟩ := ih ((mapM_ok_iff _ _ _).2 h2)
      exact ⟨_ :: r', (mapM_ok_iff _ _ _).2 (.cons h1 ((mapM_ok_iff _ _ _).1 h3)), h4.cons _⟩
  | swap x y l =>
    intro r h
    rw [mapM_ok_iff] at h
    cases h with
    | cons h1 h2 =>
      cases h2 with
      | cons h2 h3 => exact ⟨_, (mapM_ok_iff _ _ _).2 (.cons h2 (.cons h1 h3)), .swap _ _ _⟩
  | trans _ _ i1 i2 =>
    intro r h
    obtain ⟨r1, h1, p1⟩ := i1 h
    obtain ⟨r2, h2, p2⟩ := i2 h1
    exact ⟨r2, h2, p1.trans p2⟩

/-- For all trees learned over the same numeric, symbolic and integer variables, from any data, precisions and hyperparameters:
trees that compare equal give the same answer to every query, and with the same minimal distances the same likelihood to every
row.  Partial: the minimal distances are not compared (`C110_violated_distances`), and the comparison can raise an exception
(`C110_violated_kinds`). -/
theorem C110_learned_partial {val : ℤ → ℚ} (hval : StrictMono val) {idx : ℚ → ℤ} (hidx : ∀ n, idx (val n) = n) (rnd : ℚ → ℤ)
    (eps eps' : ℚ) (c c' : Cfg) (kind : ℕ → MK L) (data data' : Data) (total total' : ℕ) (hk : Kinds c kind)
    (hk' : Kinds c' kind) (hn : c.vars.length = c'.vars.length) (hdata : DataOK c data total)
    (hdata' : DataOK c' data' total') (hfl : Floats val c data total) (hfl' : Floats val c' data' total')
    (h h' : Heap (MD L)) (hl : learn c data total (fitMix val idx eps kind data) = .ok h)
    (hl' : learn c' data' total' (fitMix val idx eps' kind data') = .ok h') (priors priors' : List (ℕ × MD L))
    (heq : treeEq idx mixEq h h' priors priors' = .ok true) :
    (∀ q e : Query, QueryOK (mixFits val) kind c.vars.length q → QueryOK (mixFits val) kind c.vars.length e → ∀ fail,
      infer (mixOps L val idx rnd) c.vars.length (fullOf c) h q e fail =
        infer (mixOps L val idx rnd) c'.vars.length (fullOf c') h' q e fail) ∧
    (∀ scaling dists row p, rowLikelihood idx scaling dists h row = .ok p ↔
      rowLikelihood idx scaling dists h' row = .ok p) := by
  have hperm := learned_leaves hval hidx hk hk' hdata hdata' hfl hfl' hl hl' heq
  constructor
  · intro q e hq he fail
    have hT := learned_mix hval hidx hk hdata hfl hl
    have hT' := learned_mix hval hidx hk' hdata' hfl' hl'
    have hm : ∀ G : ℚ × List (MD L) → ℚ, (h.leaves.map (fun l => G (l.2.prior, l.2.dists))).sum =
        (h'.leaves.map (fun l => G (l.2.prior, l.2.dists))).sum := by
      intro G
      have := (hperm.map G).sum_eq
      simpa [List.map_map, Function.comp_def] using this
    have hLP : ∀ q : Query, ∃ G : List (MD L) → ℚ, ∀ l : Leaf (MD L), leafProb (mixP val idx) l q = G l.dists :=
      fun q => ⟨fun ds => leafProb (mixP val idx) ⟨none, [], ds, 0, 0, []⟩ q, fun l => rfl⟩
    obtain ⟨Gq, hGq⟩ := hLP q
    obtain ⟨Ge, hGe⟩ := hLP e
    rw [infer_eq (mix_laws hval hidx rnd) hT hq he,
      infer_eq (mix_laws hval hidx rnd) hT' (by rw [← hn]; exact hq) (by rw [← hn]; exact he)]
    have e1 : mass (mixP val idx) h e = mass (mixP val idx) h' e := by
      unfold mass
      simp only [hGe]
      exact hm (fun x => x.1 * Ge x.2)
    rw [e1]
    simp only [hGq, hGe]
    rw [hm (fun x => x.1 * (Ge x.2 * Gq x.2))]
  · intro scaling dists row p
    have key : ∀ {g g' : Heap (MD L)}, (g.leaves.map (fun l => (l.2.prior, l.2.dists))).Perm
        (g'.leaves.map (fun l => (l.2.prior, l.2.dists))) → rowLikelihood idx scaling dists g row = .ok p →
        rowLikelihood idx scaling dists g' row = .ok p := by
      intro g g' hgp hr
      obtain ⟨G, hG⟩ : ∃ G : ℚ × List (MD L) → Except Err ℚ, ∀ l : ℕ × Leaf (MD L), (do
          let p ← l.2.likelihood idx scaling dists row
          return l.2.prior * p) = G (l.2.prior, l.2.dists) :=
        ⟨fun x => (do
          let p ← Leaf.likelihood idx scaling dists ⟨none, [], x.2, x.1, 0, []⟩ row
          return x.1 * p), fun l => rfl⟩
      have hmap : ∀ ls : List (ℕ × Leaf (MD L)), ls.mapM (fun l => (do
          let p ← l.2.likelihood idx scaling dists row
          return l.2.prior * p : Except Err ℚ)) = (ls.map (fun l => (l.2.prior, l.2.dists))).mapM G := by
        intro ls
        rw [List.mapM_map]
        exact congrArg (fun F => List.mapM F ls) (funext hG)
      unfold rowLikelihood at hr ⊢
      rw [hmap] at hr ⊢
      cases hx : (g.leaves.map (fun l => (l.2.prior, l.2.dists))).mapM G with
      | error e => simp [hx, bind, Except.bind] at hr
      | ok ps =>
        obtain ⟨ps', h1, h2⟩ := mapM_perm hgp hx
        simp only [hx, bind, Except.bind, pure, Except.pure, Except.ok.injEq] at hr
        simp only [h1, bind, Except.bind, pure, Except.pure, Except.ok.injEq]
        rw [← hr, h2.sum_eq]
    exact ⟨key hperm, key hperm.symm⟩

/-! ## Examples and disagreements -/

/-- One numeric variable, at least five samples in a leaf. -/
def exE : Learn.Args := ⟨[.numeric], [], [], .int 5, none, none, none, fun _ => false⟩

def exEKind : ℕ → MK ℤ := fun _ => .inl ()

def exERows : List ℚ := [0, 0, 0, 0, 0, 1000, 2000, 3000, 4000, 5000]

def exERows' : List ℚ := [0, 0, 0, 0, 0, 1000, 2000, 3002, 4000, 5000]

def exEData (rows : List ℚ) : Data := fun r _ => rows.getD r 0

theorem exE_kind : Kinds (exE.cfg 10) exEKind := by
  intro v hv
  match v, hv with
  | 0, _ => exact .inl ⟨rfl, rfl⟩
  | v + 1, hv => exact absurd hv (by simp [exE, Learn.Args.cfg])

theorem exE_data (rows : List ℚ) : DataOK (exE.cfg 10) (exEData rows) 10 := by
  intro r hr v n hv
  match v, hv with
  | 0, hv => rcases hv with hv | hv <;> exact absurd hv (by simp [exE, Learn.Args.cfg])
  | v + 1, hv => rcases hv with hv | hv <;> exact absurd hv (by simp [exE, Learn.Args.cfg])

theorem exE_floats {rows : List ℚ} (h : ∀ r < 10, ∃ k : ℤ, rows.getD r 0 = 2 * k) :
    Floats Fun.ival (exE.cfg 10) (exEData rows) 10 := by
  intro v _ r r' hr hr'
  obtain ⟨a, ha⟩ := h r hr
  obtain ⟨b, hb⟩ := h r' hr'
  refine ⟨a + b, ?_⟩
  simp only [exEData]
  rw [ha, hb]
  simp only [Fun.ival, Int.cast_add]
  ring

theorem exE_even : (∀ r < 10, ∃ k : ℤ, exERows.getD r 0 = 2 * k) ∧ ∀ r < 10, ∃ k : ℤ, exERows'.getD r 0 = 2 * k := by
  have key : ∀ l : List ℚ, (∀ r < 10, l.getD r 0 = 2 * ((Rat.floor (l.getD r 0 / 2) : ℤ) : ℚ)) →
      ∀ r < 10, ∃ k : ℤ, l.getD r 0 = 2 * k := fun l h r hr => ⟨_, h r hr⟩
  exact ⟨key _ (by decide +kernel), key _ (by decide +kernel)⟩

/-- Two computations that succeed with results we can check. -/
theorem exists_ok₂ {ε α β : Type} {x : Except ε α} {y : Except ε β} {P : α → β → Prop} [∀ a, DecidablePred (P a)]
    (h : (match x, y with | .ok a, .ok b => decide (P a b) | _, _ => false) = true) :
    ∃ a b, x = .ok a ∧ y = .ok b ∧ P a b := by
  cases x with
  | error e => cases h
  | ok a =>
    cases y with
    | error e => cases h
    | ok b => exact ⟨a, b, rfl, rfl, by simpa using h⟩

/-- The smallest distance between different numbers of a column. -/
def MinGap (rows : List ℚ) (δ : ℚ) : Prop :=
  (∃ a ∈ rows, ∃ b ∈ rows, a < b ∧ b - a = δ) ∧ ∀ a ∈ rows, ∀ b ∈ rows, a < b → δ ≤ b - a

instance (rows : List ℚ) (δ : ℚ) : Decidable (MinGap rows δ) := by unfold MinGap; infer_instance

/-- What is learned from ten rows of one numeric variable. -/
def exEFit (rows : List ℚ) : List ℕ → ℕ → MD ℤ := fitMix Fun.ival Rat.floor (1 / 100) exEKind (exEData rows)

/-- Two trees from different rows that compare equal. -/
theorem exE_equal : ∃ h h', learn (exE.cfg 10) (exEData exERows) 10 (exEFit exERows) = .ok h ∧
    learn (exE.cfg 10) (exEData exERows') 10 (exEFit exERows') = .ok h' ∧ 1 < h.leaves.length ∧
    treeEq Rat.floor mixEq h h' (learnedPriors 1 10 (exEFit exERows)) (learnedPriors 1 10 (exEFit exERows')) = .ok true ∧
    rowLikelihood Rat.floor 1 [(0, 1000)] h [0] = .ok (1 / 2000) ∧
    rowLikelihood Rat.floor 1 [(0, 998)] h' [0] = .ok (1 / 1996) :=
  exists_ok₂ (by decide +kernel)

example : ∃ h h', learn (exE.cfg 10) (exEData exERows) 10 (exEFit exERows) = .ok h ∧
    learn (exE.cfg 10) (exEData exERows') 10 (exEFit exERows') = .ok h' ∧ exERows ≠ exERows' ∧ 1 < h.leaves.length ∧
    (∀ q e : Query, QueryOK (mixFits Fun.ival) exEKind 1 q → QueryOK (mixFits Fun.ival) exEKind 1 e → ∀ fail,
      infer (mixOps ℤ Fun.ival Rat.floor Rat.floor) 1 (fullOf (exE.cfg 10)) h q e fail =
        infer (mixOps ℤ Fun.ival Rat.floor Rat.floor) 1 (fullOf (exE.cfg 10)) h' q e fail) := by
  obtain ⟨h, h', h1, h2, h3, h4, -⟩ := exE_equal
  exact ⟨h, h', h1, h2, by decide +kernel, h3, (C110_learned_partial Fun.ival_strictMono (fun n => by simp [Fun.ival]) Rat.floor
    _ _ _ _ exEKind _ _ _ _ exE_kind exE_kind rfl (exE_data _) (exE_data _) (exE_floats exE_even.1) (exE_floats exE_even.2)
    h h' h1 h2 _ _ h4).1⟩

/-- Disagreement: trees that compare equal can give different likelihoods to the same row, because the minimal distances of the
numeric variables, which replace infinite densities, are learned from the data but not compared.  Two tables of ten numbers
that differ in one number (3000 and 3002) give equal trees, but the likelihoods of the number 0 are 1/2000 and 1/1996. -/
theorem C110_violated_distances : ¬ ∀ (rows rows' : List ℚ) (δ δ' : ℚ) (h h' : Heap (MD ℤ)),
    MinGap rows δ → MinGap rows' δ' → learn (exE.cfg 10) (exEData rows) 10 (exEFit rows) = .ok h →
    learn (exE.cfg 10) (exEData rows') 10 (exEFit rows') = .ok h' →
    treeEq Rat.floor mixEq h h' (learnedPriors 1 10 (exEFit rows)) (learnedPriors 1 10 (exEFit rows')) = .ok true →
    ∀ x : ℚ, rowLikelihood Rat.floor 1 [(0, δ)] h [x] = rowLikelihood Rat.floor 1 [(0, δ')] h' [x] := by
  intro hall
  obtain ⟨h, h', h1, h2, -, h4, h5, h6⟩ := exE_equal
  have := hall exERows exERows' 1000 998 h h' (by decide +kernel) (by decide +kernel) h1 h2 h4 0
  rw [h5, h6] at this
  exact absurd this (by decide +kernel)

/-- Six rows in which the numeric variable says nothing about the symbolic one. -/
def exMData' : Data := fun r v =>
  (([[0, 0], [10, 0], [0, 0], [10, 1], [0, 1], [10, 1]] : List (List ℚ)).getD r []).getD v 0

/-- Disagreement: comparing two trees over the same variables can raise an exception instead of returning `False`.  If the
nodes with the same number split on a numeric and on a symbolic variable, the splits are compared before the variables, and
an interval asks a set of values for its minimum (`AttributeError`). -/
theorem C110_violated_kinds : ¬ ∀ (data data' : Data) (h h' : Heap (MD ℤ)),
    learn (exM.cfg 6) data 6 (fitMix Fun.ival Rat.floor (1 / 100) exMKind data) = .ok h →
    learn (exM.cfg 6) data' 6 (fitMix Fun.ival Rat.floor (1 / 100) exMKind data') = .ok h' →
    ∃ b, treeEq Rat.floor mixEq h h' (learnedPriors 2 6 (fitMix Fun.ival Rat.floor (1 / 100) exMKind data))
      (learnedPriors 2 6 (fitMix Fun.ival Rat.floor (1 / 100) exMKind data')) = .ok b := by
  intro hall
  obtain ⟨h, h', h1, h2, h3⟩ : ∃ h h',
      learn (exM.cfg 6) exMData 6 (fitMix Fun.ival Rat.floor (1 / 100) exMKind exMData) = .ok h ∧
      learn (exM.cfg 6) exMData' 6 (fitMix Fun.ival Rat.floor (1 / 100) exMKind exMData') = .ok h' ∧
      treeEq Rat.floor mixEq h h' (learnedPriors 2 6 (fitMix Fun.ival Rat.floor (1 / 100) exMKind exMData))
        (learnedPriors 2 6 (fitMix Fun.ival Rat.floor (1 / 100) exMKind exMData')) = .error .attributeError :=
    exists_ok₂ (by decide +kernel)
  obtain ⟨b, hb⟩ := hall _ _ h h' h1 h2
  rw [h3] at hb
  cases hb

end Verif.Trees
