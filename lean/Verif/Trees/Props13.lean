import Verif.Trees.Pdf
import Verif.Trees.Props12

/-!
# C89: `pdf` is the likelihood of a partial world

The model is `Verif.Trees.Pdf`; `mass` (`Verif.Trees.Spec`) is the probability of a query.
-/

namespace Verif.Trees

open Disc
open Learn (Cfg Data DataOK learn exists_ok fullOf)

variable {L : Type} [DecidableEq L] {kind : ℕ → Bool × Dom L} {full : ℕ → Region} {n : ℕ} {h : Heap (DD L)}

theorem pdfAt_eq {k : Bool × Dom L} {d : DD L} (hd : discOk k d) (asLabel : ℤ → L) (z : ℤ) :
    pdfAt asLabel d z = if asLabel z ∈ k.2.labels then .ok (d.2.P (fun a => a = asLabel z)) else .error .valueError := by
  obtain ⟨h1, h2, h3⟩ := hd
  unfold pdfAt
  have h4 := C27_p d.2 h3 (.atom (asLabel z))
  rw [h4.2, h4.1, h2]
  simp [Arg.elems]

/-- `pdf` raises `ValueError` for sets of several values and for variables the tree does not have. -/
theorem C89_errors (asLabel : ℤ → L) (q : Query)
    (hq : (∃ i ∈ q, ∃ l, i.2 = .set l ∧ 1 < l.length) ∨ ∃ i ∈ q, ¬ i.1 < n) :
    pdf asLabel n h q = .error .valueError := by
  unfold pdf
  by_cases hb : q.any tooBig = true
  · rw [if_pos hb]
  · rw [if_neg hb]
    rcases hq with ⟨i, hi, l, hl, hlt⟩ | ⟨i, hi, hn⟩
    · refine absurd (List.any_eq_true.2 ⟨i, hi, ?_⟩) hb
      unfold tooBig
      rw [hl]
      exact decide_eq_true hlt
    · have : checkQuery n q = .error .valueError := by
        unfold checkQuery
        rw [if_neg (fun hc => hn (hc i hi))]
      rw [this]
      rfl

theorem mapM_raises {α β : Type} {f : α → Except Err β} {e : Err} {l : List α}
    (h1 : ∀ a ∈ l, (∃ b, f a = .ok b) ∨ f a = .error e) (h2 : ∃ a ∈ l, f a = .error e) : l.mapM f = .error e := by
  induction l with
  | nil => obtain ⟨a, ha, -⟩ := h2; cases ha
  | cons a l ih =>
    rw [List.mapM_cons]
    rcases h1 a (by simp) with ⟨b, hb⟩ | ha
    · obtain ⟨x, hx, hfx⟩ := h2
      rcases List.mem_cons.1 hx with rfl | hx
      · rw [hb] at hfx; cases hfx
      · rw [hb, ih (fun y hy => h1 y (by simp [hy])) ⟨x, hx, hfx⟩]; rfl
    · rw [ha]; rfl

/-- The query that gives one value to each of the variables. -/
def pointQuery (vars : List ℕ) (val : ℕ → ℤ) : Query := vars.map (fun v => (v, .set [val v]))

/-- The probability of the values under independent distributions, where they are taken for *labels*. -/
def asLabelProb (asLabel : ℤ → L) (l : Leaf (DD L)) (vars : List ℕ) (val : ℕ → ℤ) : ℚ :=
  (vars.map (fun v => match l.dists[v]? with
    | some d => d.2.P (fun a => a = asLabel (val v))
    | none => 0)).prod

/-- What `pdf` computes: the leaves are chosen by the internal values, their probabilities by the labels that equal these
values.  If a value is no label of its variable and there is a leaf for the query, it raises `ValueError`. -/
theorem C89_actual (hT : TreeOK discOk discFits discP kind full n h) (asLabel : ℤ → L) (val : ℕ → ℤ) (vars : List ℕ)
    (hv : ∀ v ∈ vars, v < n) :
    ((∀ v ∈ vars, asLabel (val v) ∈ (kind v).2.labels) →
      pdf asLabel n h (pointQuery vars val) = .ok (((h.leaves.filter
        (fun l => l.2.path.all (fun e => passes (pointQuery vars val) e.1 e.2))).map (fun l => l.2.prior *
          asLabelProb asLabel l.2 vars val)).sum)) ∧
    ((∃ v ∈ vars, asLabel (val v) ∉ (kind v).2.labels) →
      (∃ l ∈ h.leaves, ∀ e ∈ l.2.path, passes (pointQuery vars val) e.1 e.2 = true) →
      pdf asLabel n h (pointQuery vars val) = .error .valueError) := by
  have hlt : ∀ i ∈ pointQuery vars val, i.1 < n := by
    intro i hi
    obtain ⟨v, hv', rfl⟩ := List.mem_map.1 hi
    exact hv v hv'
  obtain ⟨ls, hls, hperm⟩ := apply_perm (q := pointQuery vars val) hT.shape hT.noNone hT.fitted hlt
  have hmem : ∀ l ∈ ls, l ∈ h.leaves := fun l hl => List.mem_of_mem_filter (hperm.mem_iff.1 hl)
  have hbig : ¬ (pointQuery vars val).any tooBig = true := by
    rw [List.any_eq_true]
    rintro ⟨i, hi, hb⟩
    obtain ⟨v, hv', rfl⟩ := List.mem_map.1 hi
    simp [tooBig] at hb
  have hcheck : checkQuery n (pointQuery vars val) = .ok () := by
    unfold checkQuery
    rw [if_pos hlt]
  have hfac : ∀ l ∈ ls, ∀ v ∈ vars, ∃ d, l.2.dists[v]? = some d ∧ pdfFactor asLabel l.2 (v, .set [val v]) =
      if asLabel (val v) ∈ (kind v).2.labels then .ok (d.2.P (fun a => a = asLabel (val v))) else .error .valueError := by
    intro l hl v hv'
    have hm := hmem l hl
    obtain ⟨d, hd⟩ : ∃ d, l.2.dists[v]? = some d :=
      ⟨_, List.getElem?_eq_getElem (by rw [(hT.dists l hm).1]; exact hv v hv')⟩
    refine ⟨d, hd, ?_⟩
    unfold pdfFactor
    simp only [hd]
    rw [pdfAt_eq ((hT.dists l hm).2 v d hd)]
  constructor
  · intro hlab
    have hterm : ls.mapM (fun l => do
        let fs ← (pointQuery vars val).mapM (pdfFactor asLabel l.2)
        return l.2.prior * fs.prod) = Except.ok (ε := Err) (ls.map (fun l => l.2.prior *
          asLabelProb asLabel l.2 vars val)) := by
      apply mapM_ok
      intro l hl
      have hf : (pointQuery vars val).mapM (pdfFactor asLabel l.2) = .ok (vars.map (fun v => match l.2.dists[v]? with
          | some d => d.2.P (fun a => a = asLabel (val v))
          | none => 0)) := by
        unfold pointQuery
        rw [mapM_ok_iff, List.forall₂_map_left_iff, List.forall₂_map_right_iff, List.forall₂_same]
        intro v hv'
        obtain ⟨d, hd, hf⟩ := hfac l hl v hv'
        rw [hf, if_pos (hlab v hv')]
        simp only [hd]
      rw [hf]
      rfl
    unfold pdf
    rw [if_neg hbig, hcheck, hls, ← (hperm.map _).sum_eq]
    simp only [bind, Except.bind] at hterm ⊢
    rw [hterm]
    rfl
  · rintro ⟨v, hv', hno⟩ ⟨l, hl, hpass⟩
    have hlm : l ∈ ls := hperm.mem_iff.2 (List.mem_filter.2 ⟨hl, List.all_eq_true.2 hpass⟩)
    have hinner : ∀ l ∈ ls, (pointQuery vars val).mapM (pdfFactor asLabel l.2) = .error .valueError := by
      intro l hl
      refine mapM_raises (fun i hi => ?_) ⟨_, List.mem_map.2 ⟨v, hv', rfl⟩, ?_⟩
      · obtain ⟨w, hw, rfl⟩ := List.mem_map.1 hi
        obtain ⟨d, -, hf⟩ := hfac l hl w hw
        rw [hf]
        by_cases hw2 : asLabel (val w) ∈ (kind w).2.labels
        · rw [if_pos hw2]; exact .inl ⟨_, rfl⟩
        · rw [if_neg hw2]; exact .inr rfl
      · obtain ⟨d, -, hf⟩ := hfac l hl v hv'
        rw [hf, if_neg hno]
    have hterm : ls.mapM (fun l => do
        let fs ← (pointQuery vars val).mapM (pdfFactor asLabel l.2)
        return l.2.prior * fs.prod) = Except.error (α := List ℚ) Err.valueError := by
      have hne : ls ≠ [] := List.ne_nil_of_mem hlm
      obtain ⟨a, t, rfl⟩ := List.exists_cons_of_ne_nil hne
      rw [List.mapM_cons, hinner a (by simp)]
      rfl
    unfold pdf
    rw [if_neg hbig, hcheck, hls]
    simp only [bind, Except.bind] at hterm ⊢
    rw [hterm]

/-- The label at the position of a value has the probability of the value. -/
theorem discP_asLabel {k : Bool × Dom L} {d : DD L} (hd : discOk k d) {asLabel : ℤ → L} {z : ℤ}
    (hlab : ∀ (j : ℕ) a, k.2.labels[j]? = some a → a = asLabel j) (hz : 0 ≤ z ∧ z < k.2.labels.length) :
    d.2.P (fun a => a = asLabel z) = discP d (.set [z]) := by
  obtain ⟨h1, h2, h3, h4, h5, h6⟩ := hd
  rw [h2] at h3 h4
  unfold discP Dist.P
  rw [h2]
  refine mass_congr _ _ _ _ _ (by rw [List.length_range, h4]) ?_
  intro i a m ha hm
  have hi : m = i := by
    have := (List.getElem?_eq_some_iff.1 hm)
    obtain ⟨h7, h8⟩ := this
    rw [List.getElem_range] at h8
    exact h8.symm
  subst hi
  rw [mem_set_nat, List.mem_singleton]
  constructor
  · intro e
    obtain ⟨hz1, hz2⟩ := hz
    obtain ⟨b, hb⟩ : ∃ b, k.2.labels[z.toNat]? = some b := ⟨_, List.getElem?_eq_getElem (by omega)⟩
    have h7 := hlab _ _ hb
    rw [Int.toNat_of_nonneg hz1, ← e] at h7
    subst h7
    obtain ⟨l1, e1⟩ := List.getElem?_eq_some_iff.1 ha
    obtain ⟨l2, e2⟩ := List.getElem?_eq_some_iff.1 hb
    have := (h3.getElem_inj_iff (hi := l1) (hj := l2)).1 (by rw [e1, e2])
    omega
  · intro e
    rw [← e]
    exact hlab _ _ ha

/-- C89: the likelihood of a partial world is its probability, if the labels of the variables asked about are
0, 1, 2, ….  Missing: other labels, see `C89_violated_label`, and numeric variables. -/
theorem C89_probability_partial (hT : TreeOK discOk discFits discP kind full n h) {asLabel : ℤ → L} {vars : List ℕ}
    {val : ℕ → ℤ} (hq : QueryOK discFits kind n (pointQuery vars val))
    (hlab : ∀ v ∈ vars, ∀ (j : ℕ) a, (kind v).2.labels[j]? = some a → a = asLabel j) :
    pdf asLabel n h (pointQuery vars val) = .ok (mass discP h (pointQuery vars val)) := by
  have hv : ∀ v ∈ vars, v < n ∧ 0 ≤ val v ∧ val v < (kind v).2.labels.length := by
    intro v hv
    have h1 := hq.2 (v, .set [val v]) (List.mem_map.2 ⟨v, hv, rfl⟩)
    obtain ⟨l, e, h2⟩ := h1.2.1
    injection e with e
    subst e
    exact ⟨h1.1, h2 _ (by simp)⟩
  have hin : ∀ v ∈ vars, asLabel (val v) ∈ (kind v).2.labels := by
    intro v hv'
    obtain ⟨-, h1, h2⟩ := hv v hv'
    obtain ⟨b, hb⟩ : ∃ b, (kind v).2.labels[(val v).toNat]? = some b := ⟨_, List.getElem?_eq_getElem (by omega)⟩
    have h3 := hlab v hv' _ _ hb
    rw [Int.toNat_of_nonneg h1] at h3
    rw [← h3]
    exact List.mem_of_getElem? hb
  have hprob : ∀ l ∈ h.leaves, asLabelProb asLabel l.2 vars val = leafProb discP l.2 (pointQuery vars val) := by
    intro l hl
    unfold asLabelProb leafProb pointQuery
    rw [List.map_map]
    congr 1
    apply List.map_congr_left
    intro v hv'
    obtain ⟨h0, h1, h2⟩ := hv v hv'
    simp only [Function.comp_def]
    cases hd : l.2.dists[v]? with
    | none => rfl
    | some d => exact discP_asLabel ((hT.dists l hl).2 v d hd) (hlab v hv') ⟨h1, h2⟩
  rw [(C89_actual hT asLabel val vars (fun v hv' => (hv v hv').1)).1 hin]
  congr 1
  have h1 : ((h.leaves.filter (fun l => l.2.path.all (fun e => passes (pointQuery vars val) e.1 e.2))).map
      (fun l => l.2.prior * asLabelProb asLabel l.2 vars val)).sum =
      ((h.leaves.filter (fun l => l.2.path.all (fun e => passes (pointQuery vars val) e.1 e.2))).map
      (fun l => l.2.prior * leafProb discP l.2 (pointQuery vars val))).sum := by
    congr 1
    apply List.map_congr_left
    intro l hl
    rw [hprob l (List.mem_of_mem_filter hl)]
  rw [h1, sum_filter]
  · rfl
  · intro l hm hp
    rw [leafProb_not_passes disc_laws.toPLaws (hT.dists l hm).1 (hT.dists l hm).2 (hT.path l hm) hT.values
      (hT.support l hm) hq hp, mul_zero]

/-- C89: in a learned tree the likelihood of a single value is the share of the training rows with that value, if the
labels of the variable are 0, 1, 2, …. -/
theorem C89_frequency_partial {c : Cfg} {data : Data} {total : ℕ} (hk : Discrete c kind) (hdata : DataOK c data total)
    (hl : learn c data total (fitDisc kind data) = .ok h) {asLabel : ℤ → L} {v : ℕ} (hv : v < c.vars.length)
    (hlab : ∀ (j : ℕ) a, (kind v).2.labels[j]? = some a → a = asLabel j) {z : ℤ}
    (hz : 0 ≤ z ∧ z < (kind v).2.labels.length) :
    pdf asLabel c.vars.length h [(v, .set [z])] =
      .ok (((List.range total).countP (fun r => decide (data r v = z)) : ℚ) / total) := by
  have h1 := C89_probability_partial (learned_ok hk hdata hl) (asLabel := asLabel) (vars := [v]) (val := fun _ => z)
    ⟨by simp [pointQuery], by
      intro i hi
      simp only [pointQuery, List.map_cons, List.map_nil, List.mem_singleton] at hi
      subst hi
      exact ⟨hv, ⟨[z], rfl, by intro x hx; rw [List.mem_singleton.1 hx]; exact hz⟩, trivial⟩⟩
    (by intro w hw; rw [List.mem_singleton.1 hw]; exact hlab)
  refine (show pdf asLabel c.vars.length h (pointQuery [v] fun _ => z) = _ from h1).trans ?_
  show Except.ok (mass discP h [(v, .set [z])]) = _
  rw [learned_marginal hk hdata hl hv]
  congr 3
  apply List.countP_congr
  intro r hr
  simp only [decide_eq_true_eq]
  constructor
  · rintro ⟨y, hy, e⟩
    rw [List.mem_singleton.1 hy] at e
    injection e
  · intro e
    exact ⟨z, by simp, by rw [e]⟩

/-- The example of `Verif.Trees.Props` with the labels 0, 1, 2 for the integer variable. -/
def exZero : ℕ → Bool × Dom ℤ
  | 0 => (false, ⟨"W", [10, 20]⟩)
  | _ => (true, ⟨"N", [0, 1, 2]⟩)

theorem exZero_kind : Discrete (exA.cfg 6) exZero := by
  intro v hv
  match v, hv with
  | 0, _ => exact ⟨by decide, .inr ⟨rfl, rfl⟩⟩
  | 1, _ => exact ⟨by decide, .inl ⟨rfl, rfl⟩⟩
  | v + 2, hv => exact absurd hv (by simp [exA, Learn.Args.cfg])

example : ∃ h, learn (exA.cfg 6) exData 6 (fitDisc exZero exData) = .ok h ∧
    pdf id 2 h [(1, .set [1])] = .ok (1 / 3) := by
  obtain ⟨h, hl, -⟩ : ∃ h, learn (exA.cfg 6) exData 6 (fitDisc exZero exData) = .ok h ∧ True := exists_ok (by decide +kernel)
  refine ⟨h, hl, (C89_frequency_partial exZero_kind exA_data hl (asLabel := id) (v := 1) (by decide) ?_ (z := 1)
    (by decide)).trans ?_⟩
  · intro j a ha
    match j, ha with
    | 0, ha => cases ha; rfl
    | 1, ha => cases ha; rfl
    | 2, ha => cases ha; rfl
  · congr 1
    decide +kernel

/-- The example with the labels 0, 1 for the symbolic and 1, 2, 3 for the integer variable. -/
def exOne : ℕ → Bool × Dom ℤ
  | 0 => (false, ⟨"W", [0, 1]⟩)
  | _ => (true, ⟨"N", [1, 2, 3]⟩)

/-- The tree learned from it. -/
abbrev exLearnOne : Except Err (Heap (DD ℤ)) := learn (exA.cfg 6) exData 6 (fitDisc exOne exData)

/-- C89 is violated: `pdf` looks the internal value up among the labels.  For the integer variable with the labels
1, 2, 3 the likelihood of the label 2 (value 1) is the one of the label 1: 1/3 instead of 1/6 together with the label 0
of the first variable.  The label 1 (value 0) raises `ValueError`, although it occurs in a third of the training rows. -/
theorem C89_violated_label :
    (exLearnOne.bind (fun h => pdf id 2 h [(0, .set [0]), (1, .set [1])])).toOption = some (1 / 3) ∧
    (exLearnOne.bind (fun h => infer (discOps ℤ) 2 (fullOf (exA.cfg 6)) h [(0, .set [0]), (1, .set [1])] [])).toOption =
      some (some (1 / 6)) ∧
    (match exLearnOne.bind (fun h => pdf id 2 h [(1, .set [0])]) with
      | .error e => e == .valueError
      | .ok _ => false) = true ∧
    (exLearnOne.bind (fun h => infer (discOps ℤ) 2 (fullOf (exA.cfg 6)) h [(1, .set [0])] [])).toOption =
      some (some (1 / 3)) := by
  decide +kernel

end Verif.Trees
