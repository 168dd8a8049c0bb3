import Verif.Trees.Discrete
import Verif.Trees.Lemmas2
import Verif.Trees.Lemmas8
import Verif.Learn.Props

/-!
# Learned trees over symbolic and integer variables

The trees that `learn` builds satisfy what the theorems about queries assume.
-/

namespace Verif.Trees

open Disc (Dist Dom Arg)
open Learn (Cfg Data learn Valid Sat DataOK fullOf domainOf)

variable {L : Type} [DecidableEq L]

/-- `variable.distribution().fit` (multinomial.py 402-414, integer.py 387-402) on the rows of a
leaf. -/
def fitDisc (kind : ℕ → Bool × Dom L) (data : Data) (rows : List ℕ) (v : ℕ) : DD L :=
  match Dist.fitVal (kind v).2 (rows.map (fun r => Learn.toInt (data r v))) with
  | .ok d => ((kind v).1, d)
  | .error _ => ((kind v).1, ⟨(kind v).2, []⟩)

/-- A variable of the learner is a symbolic or integer variable with this domain. -/
def DiscreteAt (c : Cfg) (kind : ℕ → Bool × Dom L) (v : ℕ) : Prop :=
  (kind v).2.labels.Nodup ∧
    (c.vars[v]? = some (.integer (kind v).2.labels.length) ∧ (kind v).1 = true ∨
     c.vars[v]? = some (.symbolic (kind v).2.labels.length) ∧ (kind v).1 = false)

/-- The variables of the learner are symbolic or integer variables with these domains. -/
def Discrete (c : Cfg) (kind : ℕ → Bool × Dom L) : Prop := ∀ v, v < c.vars.length → DiscreteAt c kind v

omit [DecidableEq L] in
theorem fitVal_spec (dom : Dom L) (hn : dom.labels.Nodup) (vals : List ℕ)
    (hv : ∀ i ∈ vals, i < dom.labels.length) (hne : vals ≠ []) (b : Bool) :
    ∃ d, Dist.fitVal dom (vals.map (fun i : ℕ => (i : ℤ))) = .ok d ∧ d.dom = dom ∧ d.Proper ∧
      ∀ r : Region, discP (b, d) r
        = (vals.countP (fun i : ℕ => decide (r.Mem (.fin (i : ℚ)))) : ℚ) / (vals.length : ℚ) := by
  have h2 : List.Forall₂ (fun (k : ℕ) (v : ℤ) => ∃ i : ℕ, v = (i : ℤ) ∧
      (List.range dom.labels.length)[i]? = some k) vals (vals.map (fun i : ℕ => (i : ℤ))) := by
    clear hne
    induction vals with
    | nil => exact .nil
    | cons a l ih =>
      refine .cons ⟨a, rfl, ?_⟩ (ih (fun i hi => hv i (List.mem_cons_of_mem _ hi)))
      rw [List.getElem?_range (hv a List.mem_cons_self)]
  obtain ⟨ps, h3, h4, h5, h6⟩ := Disc.fit_fold (List.range dom.labels.length)
    (1 / ((vals.map (fun i : ℕ => (i : ℤ))).length : ℚ)) (by positivity) _ vals
    (List.replicate dom.labels.length 0) (by simp)
    (fun a ha => by rw [List.eq_of_mem_replicate ha]) h2
  have hz : ∀ (S : ℕ → Prop) [DecidablePred S],
      Disc.mass (List.range dom.labels.length) (List.replicate dom.labels.length (0 : ℚ)) S = 0 := by
    intro S _
    exact Disc.mass_replicate S _ _
  rw [List.length_range] at h4
  have hP : ∀ (S : ℕ → Prop) [DecidablePred S], Disc.mass (List.range dom.labels.length) ps S
      = (vals.countP (fun l => decide (S l)) : ℚ) / (vals.length : ℚ) := by
    intro S _
    rw [h6, hz, zero_add, List.length_map, mul_one_div]
  have hlen : (0 : ℚ) < (vals.length : ℚ) := by
    have := List.length_pos_iff.2 hne
    exact_mod_cast this
  refine ⟨⟨dom, ps⟩, ?_, rfl, ⟨hn, h4, h5, ?_⟩, ?_⟩
  · unfold Dist.fitVal
    simp only [bind, Except.bind]
    rw [h3]
    rfl
  · have := hP (fun _ => True)
    rw [Disc.mass_univ _ _ _ (by simpa using h4) (fun _ _ => trivial)] at this
    show ps.sum = 1
    rw [this]
    simp [hlen.ne']
  · intro r
    unfold discP
    show Disc.mass (List.range ps.length) ps _ = _
    rw [h4]
    exact hP _

variable {c : Cfg} {kind : ℕ → Bool × Dom L} {data : Data} {total : ℕ}

omit [DecidableEq L] in
/-- The distributions of a leaf: relative frequencies in its rows. -/
theorem fitDisc_spec {v : ℕ} (hk : DiscreteAt c kind v) {rows : List ℕ} (hr : ∀ r ∈ rows, Valid c (data r))
    (hne : rows ≠ []) :
    discOk (kind v) (fitDisc kind data rows v) ∧ ∀ R : Region, discP (fitDisc kind data rows v) R
      = (rows.countP (fun r => decide (R.Mem (.fin (data r v)))) : ℚ) / (rows.length : ℚ) := by
  obtain ⟨hn, hkv⟩ := hk
  have hval : ∀ r ∈ rows, ∃ i : ℕ, i < (kind v).2.labels.length ∧ data r v = (i : ℚ) := by
    intro r h
    rcases hkv with h' | h'
    · exact hr r h v _ (.inl h'.1)
    · exact hr r h v _ (.inr h'.1)
  have hto : ∀ r ∈ rows, ((Learn.toInt (data r v)).toNat : ℚ) = data r v ∧
      (Learn.toInt (data r v)).toNat < (kind v).2.labels.length ∧
      Learn.toInt (data r v) = ((Learn.toInt (data r v)).toNat : ℤ) := by
    intro r h
    obtain ⟨i, hi, he⟩ := hval r h
    rw [he, Learn.toInt_nat]
    simp [hi]
  have hmap : rows.map (fun r => Learn.toInt (data r v))
      = (rows.map (fun r => (Learn.toInt (data r v)).toNat)).map (fun i : ℕ => (i : ℤ)) := by
    rw [List.map_map]
    apply List.map_congr_left
    intro r h
    exact (hto r h).2.2
  obtain ⟨d, h1, h2, h3, h4⟩ := fitVal_spec (kind v).2 hn
    (rows.map (fun r => (Learn.toInt (data r v)).toNat))
    (by
      intro i hi
      obtain ⟨r, h, rfl⟩ := List.mem_map.1 hi
      exact (hto r h).2.1) (by simpa using hne) (kind v).1
  have hd : fitDisc kind data rows v = ((kind v).1, d) := by
    unfold fitDisc
    rw [hmap, h1]
  rw [hd]
  refine ⟨⟨rfl, h2, h3⟩, ?_⟩
  intro R
  rw [h4, List.countP_map, List.length_map]
  congr 2
  apply List.countP_congr
  intro r h
  simp only [Function.comp, (hto r h).1]

omit [DecidableEq L] in
theorem regOK_lt {v : ℕ} {r : Region} (h : Learn.RegOK c v r) : v < c.vars.length := by
  obtain ⟨h1, h2⟩ := h
  by_contra hc
  rw [List.getElem?_eq_none (by omega)] at h2
  exact h2

omit [DecidableEq L] in
theorem regOK_fits {v : ℕ} (hk : DiscreteAt c kind v) {r : Region} (h : Learn.RegOK c v r) :
    discFits (kind v) r ∧ r.OK := by
  obtain ⟨h1, h2⟩ := h
  obtain ⟨_, hkv⟩ := hk
  refine ⟨?_, h1⟩
  rcases hkv with h' | h'
  · rw [h'.1] at h2; exact h2
  · rw [h'.1] at h2; exact h2

omit [DecidableEq L] in
theorem full_fits {v : ℕ} (hk : DiscreteAt c kind v) :
    discFits (kind v) (fullOf c v) ∧
      ∀ r x, discFits (kind v) r → r.Mem x → (fullOf c v).Mem x := by
  have hf : fullOf c v = .set (domainOf (kind v).2.labels.length) := by
    unfold fullOf
    rcases hk.2 with h' | h' <;> rw [h'.1]
  rw [hf]
  refine ⟨⟨_, rfl, fun z hz => Learn.mem_domainOf hz⟩, ?_⟩
  rintro r x ⟨l, rfl, hl⟩ ⟨z, hz, rfl⟩
  refine ⟨z, ?_, rfl⟩
  obtain ⟨h1, h2⟩ := hl z hz
  unfold domainOf
  rw [List.mem_map]
  exact ⟨z.toNat, List.mem_range.2 (by omega), by omega⟩

/-- The nodes of a learned tree. -/
theorem learned_shape {D : Type} {fit : List ℕ → ℕ → D} (hdata : DataOK c data total) {h : Heap D}
    (hl : learn c data total fit = .ok h) : Shape h ∧ Full h ∧ h.root ≠ none := by
  obtain ⟨idx, hI⟩ := Learn.learn_inv hdata hl
  refine ⟨hI.shape, ?_, ?_⟩
  · intro k n hkn hmem
    obtain ⟨i, hi, hget⟩ := List.getElem_of_mem hmem
    obtain ⟨it, hit, _⟩ := hI.complete k n i hkn (by rw [List.getElem?_eq_getElem hi, hget])
    cases hit
  · intro hr
    have h0 : h.leaves ≠ [] := by
      intro hc
      have := hI.rows
      rw [hc] at this
      simp only [List.flatMap_nil, List.append_nil] at this
      have h1 := this.length_eq
      rw [List.length_range, List.length_nil] at h1
      subst h1
      cases hl
    obtain ⟨e, he⟩ := List.exists_mem_of_ne_nil _ h0
    -- follow the parents up to the root
    have hup : ∀ (k : ℕ), ∀ (j : ℕ), j < k → ∀ par path, NodeAt h j par path → False := by
      intro k
      induction k with
      | zero => intro j hj; omega
      | succ k ih =>
        intro j hj par path hn
        cases par with
        | none =>
          have := (hI.shape.parents j path hn).1
          simp only at this
          rw [hr] at this
          cases this
        | some p =>
          obtain ⟨m, i, hm, hc⟩ := hI.shape.parents' j p path hn
          have hlt := (hI.shape.kids p m i j hm hc).1
          exact ih p (by omega) _ _ (.inl ⟨m, hm, rfl, rfl⟩)
    have hwf : Dict.WF h.leaves := (List.nodup_append.1 hI.shape.nodup).2.1
    have hlk : h.leaves.lookup e.1 = some e.2 := Dict.mem_lookup hwf he
    exact hup (e.1 + 1) e.1 (by omega) _ _ (.inr ⟨e.2, hlk, rfl, rfl⟩)

/-- Every decision node of a learned tree has two children, and parents come before their children. -/
theorem learned_binary {D : Type} {fit : List ℕ → ℕ → D} (hdata : DataOK c data total) {h : Heap D}
    (hl : learn c data total fit = .ok h) : Binary h ∧ Sorted h := by
  obtain ⟨idx, hI⟩ := Learn.learn_inv hdata hl
  exact ⟨hI.binary, hI.fresh.sorted⟩

/-- A learned tree over symbolic and integer variables is a fitted tree in the sense of
`TreeOK`. -/
theorem learned_ok (hk : Discrete c kind) (hdata : DataOK c data total) {h : Heap (DD L)}
    (hl : learn c data total (fitDisc kind data) = .ok h) :
    TreeOK discOk discFits discP kind (fullOf c) c.vars.length h := by
  obtain ⟨idx, hI⟩ := Learn.learn_inv hdata hl
  have hrow : ∀ e ∈ h.leaves, ∀ r ∈ e.2.rows, r < total := by
    intro e he r hr
    have := hI.rows.mem_iff (a := r)
    simp only [List.flatMap_nil, List.append_nil, List.mem_flatMap, List.mem_range] at this
    exact this.1 ⟨e, he, hr⟩
  have hpath : ∀ e ∈ h.leaves, ∀ s ∈ e.2.path, s.1 < c.vars.length ∧ discFits (kind s.1) s.2 ∧ s.2.OK :=
    fun e he s hs => ⟨regOK_lt ((hI.leaf e he).regions s hs), regOK_fits
      (hk s.1 (regOK_lt ((hI.leaf e he).regions s hs))) ((hI.leaf e he).regions s hs)⟩
  have hfit : ∀ e ∈ h.leaves, ∀ v, v < c.vars.length →
      discOk (kind v) (fitDisc kind data e.2.rows v) ∧ ∀ R : Region, discP (fitDisc kind data e.2.rows v) R
      = (e.2.rows.countP (fun r => decide (R.Mem (.fin (data r v)))) : ℚ) / (e.2.rows.length : ℚ) :=
    fun e he v hv => fitDisc_spec (hk v hv) (fun r hr => hdata r (hrow e he r hr)) (hI.leaf e he).nonempty
  have hdist : ∀ e ∈ h.leaves, ∀ (v : ℕ) (d : DD L), e.2.dists[v]? = some d →
      v < c.vars.length ∧ d = fitDisc kind data e.2.rows v := by
    intro e he v d hd
    rw [(hI.leaf e he).dists] at hd
    rw [List.getElem?_map] at hd
    cases hr : (List.range c.vars.length)[v]? with
    | none => rw [hr] at hd; cases hd
    | some w =>
      rw [hr] at hd
      obtain ⟨h1, h2⟩ := List.getElem?_eq_some_iff.1 hr
      rw [List.getElem_range] at h2
      subst h2
      rw [List.length_range] at h1
      exact ⟨h1, by cases hd; rfl⟩
  constructor
  · exact hI.shape
  · exact (learned_shape hdata hl).2.1
  · exact (learned_shape hdata hl).2.2
  · intro e he
    refine ⟨by rw [(hI.leaf e he).dists]; simp, ?_⟩
    intro v d hd
    obtain ⟨hv, rfl⟩ := hdist e he v d hd
    exact (hfit e he v hv).1
  · intro e he
    rw [(hI.leaf e he).prior]
    positivity
  · exact hpath
  · intro v hv
    exact full_fits (hk v hv)
  · intro e he v d R hR hd
    obtain ⟨hv, rfl⟩ := hdist e he v d hd
    rw [(hfit e he v hv).2]
    have hall : e.2.rows.countP (fun r => decide (R.Mem (.fin (data r v)))) = e.2.rows.length := by
      rw [List.countP_eq_length]
      intro r hr
      rw [decide_eq_true_eq, pathMap_lookup (fullOf c) e.2.path v _ R hR]
      refine ⟨?_, fun s hs hsv => hsv ▸ (hI.leaf e he).sat r hr s hs⟩
      have hvalid := hdata r (hrow e he r hr)
      have hi : ∃ i : ℕ, i < (kind v).2.labels.length ∧ data r v = (i : ℚ) := by
        rcases (hk v hv).2 with h' | h'
        · exact hvalid v _ (.inl h'.1)
        · exact hvalid v _ (.inr h'.1)
      obtain ⟨i, hi, hie⟩ := hi
      refine (full_fits (hk v hv)).2 (.set [(i : ℤ)]) _ ⟨_, rfl, ?_⟩ ?_
      · intro z hz
        rw [List.mem_singleton.1 hz]
        omega
      · rw [hie]
        exact (mem_set_nat _ i).2 (by simp)
    rw [hall]
    have : e.2.rows.length ≠ 0 := by
      simpa using (hI.leaf e he).nonempty
    exact div_self (by exact_mod_cast this)

end Verif.Trees
