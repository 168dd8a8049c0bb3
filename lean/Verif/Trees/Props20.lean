import Verif.Trees.Props14
import Verif.Trees.CropMix

/-!
# C47: `conditional_jpt` with evidence on numeric variables
-/

namespace Verif.Trees

open Iv (FP CS Br NS)
open Learn (Cfg Data DataOK fullOf learn exists_ok)

variable {L : Type} [DecidableEq L]

/-- For all trees learned over numeric, symbolic and integer variables, with evidence also on numeric variables:
`conditional_jpt` fails exactly if the evidence has probability zero.  Otherwise the leaves are those the evidence can
reach, each with prior (prior times likelihood) over the mass of the evidence and with distributions conditioned on the
evidence; variables without evidence keep theirs; the priors of the leaves sum to one, and all answers of the new tree
are the probabilities given the evidence.

Partial: in the leaves that the evidence can reach, the interval for a numeric variable is one that `_crop` can condition
the fitted distribution on (`CropOK`; C37 shows what goes wrong with others): it includes its upper bound, does not
exceed the greatest value of the leaf, and so on.  A single number is no interval here. -/
theorem C47_numeric_evidence_partial {val : ℤ → ℚ} (hval : StrictMono val) {idx : ℚ → ℤ} (hidx : ∀ n, idx (val n) = n)
    (rnd : ℚ → ℤ) (eps : ℚ) (c : Cfg) (kind : ℕ → MK L) (data : Data) (total : ℕ) (hk : Kinds c kind)
    (hdata : DataOK c data total) (hfl : Floats val c data total) (h : Heap (MD L))
    (hl : learn c data total (fitMix val idx eps kind data) = .ok h) (priors : List (ℕ × MD L))
    (hp : ∀ b ∈ priors, (mixOps L val idx rnd).reload b.2 = .ok b.2) (e : Query)
    (he : QueryOK (mixFits val) kind c.vars.length e) (hne : e ≠ []) (hpt : ∀ i ∈ e, i.2.point = none)
    (hcrop : ∀ l ∈ h.leaves, 0 < leafProb (mixP val idx) l.2 e → ∀ i ∈ e, kind i.1 = .inl () →
      ∃ I, LeftClosed I ∧ i.2 = .num (embI val I) ∧ CropOK (l.2.rows.map (fun r => idx (data r i.1))) I) :
    (mass (mixP val idx) h e = 0 →
      conditional (mixOps L val idx rnd) c.vars.length (fullOf c) h priors e = .error .unsatisfiable) ∧
    (mass (mixP val idx) h e ≠ 0 → ∃ h' ps,
      conditional (mixOps L val idx rnd) c.vars.length (fullOf c) h priors e = .ok (h', ps) ∧
      List.Forall₂ (Conditioned (mixFits val) (mixP val idx) kind c.vars.length e (mass (mixP val idx) h e))
        (h.leaves.filter (fun l => decide (0 < leafProb (mixP val idx) l.2 e))) h'.leaves ∧
      List.Forall₂ (fun l l' => ∀ v, e.lookup v = none → l'.2.dists[v]? = l.2.dists[v]?)
        (h.leaves.filter (fun l => decide (0 < leafProb (mixP val idx) l.2 e))) h'.leaves ∧
      (h'.leaves.map (fun l => l.2.prior)).sum = 1 ∧
      (∀ q, QueryOK (mixFits val) kind c.vars.length q → ∀ fail,
        infer (mixOps L val idx rnd) c.vars.length (fullOf c) h' q [] fail
          = .ok (some (mass (mixP val idx) h (meet q e) / mass (mixP val idx) h e))) ∧
      List.Forall₂ (fun v b => b.1 = v ∧ (mixOps L val idx rnd).reload b.2 = .ok b.2 ∧
        (∀ k, kind v = .inr k → ∃ d, b.2 = .inr d ∧ discOk k d ∧ ∀ S, discFits k S → S.OK →
          discP d S = mass (mixP val idx) h (meet [(v, S)] e) / mass (mixP val idx) h e) ∧
        (kind v = .inl () → ∃ (p : Fun.PF) (ls : List (ℕ × Leaf (MD L))) (col : List Fun.PF), b.2 = .inl p ∧
          ls.Perm h'.leaves ∧ List.Forall₂ (fun l d => l.2.dists[v]? = some (.inl d)) ls col ∧
          Num.merge val rnd col (some (ls.map (fun l => some l.2.prior))) = .ok p)) (List.range c.vars.length) ps) := by
  have hT := learned_mix_on hval hidx hk hdata hfl hl
  refine conditional_mixed hval hidx rnd eps c kind data total hk hdata hfl h hl priors hp e he hne ?_ hpt
  intro l hle hpos i hi d hd
  cases hkd : kind i.1 with
  | inr k =>
    have := (mix_laws_on hval hidx rnd).crop (kind i.1) d i.2 (by rw [hkd]; trivial) ((hT.dists l hle).2 i.1 d hd)
      (he.2 i hi).2.1 (leafProb_factor (ne_of_gt hpos) hi hd)
    rw [hkd] at this
    exact this
  | inl u =>
    obtain ⟨I, hI, hiI, hcr⟩ := hcrop l hle hpos i hi hkd
    obtain ⟨d0, hd0, hfit⟩ := (learned_fitted hval hidx hk hdata hfl hl l hle).2 i.1 (he.2 i hi).1 hkd
    rw [hd0] at hd
    cases hd
    obtain ⟨d', h1, h2, h3⟩ := num_crop (rnd := rnd) hval hidx hfit hI hcr
    refine ⟨.inl d', ?_, h2, ?_⟩
    · rw [hiI]
      show ((numOps val idx rnd).crop d0 _).map Sum.inl = _
      rw [h1]
      rfl
    · intro s hs
      rw [hiI]
      exact h3 s hs

/-- The number is between 10 and 13. -/
def exMBetween : Query := [(0, .num (embI Fun.ival ⟨.fin 10, .fin 13, .inc, .inc⟩))]

/-- Only the second leaf is reached, and what the tree conditioned on `exMBetween` says about the number being at most
12: 2/3. -/
example : ∃ h h' ps, learn (exM.cfg 6) exMData 6 (fitMix Fun.ival Rat.floor (1 / 100) exMKind exMData) = .ok h ∧
    conditional (mixOps ℤ Fun.ival Rat.floor Rat.floor) 2 (fullOf (exM.cfg 6)) h [] exMBetween = .ok (h', ps) ∧
    infer (mixOps ℤ Fun.ival Rat.floor Rat.floor) 2 (fullOf (exM.cfg 6)) h' [(0, .num ⟨.ninf, .fin 12, .exc, .inc⟩)] []
      = .ok (some (2 / 3)) := by
  obtain ⟨h, h1, h2, h3, h4⟩ : ∃ h, learn (exM.cfg 6) exMData 6 (fitMix Fun.ival Rat.floor (1 / 100) exMKind exMData)
      = .ok h ∧ h.leaves.map (fun l => (l.2.rows, decide (0 < leafProb (mixP Fun.ival Rat.floor) l.2 exMBetween)))
        = [([0, 1, 2], false), ([3, 4, 5], true)] ∧ mass (mixP Fun.ival Rat.floor) h exMBetween = 3 / 8 ∧
      mass (mixP Fun.ival Rat.floor) h (meet [(0, .num ⟨.ninf, .fin 12, .exc, .inc⟩)] exMBetween) = 1 / 4 :=
    exists_ok (by decide +kernel)
  have hI : LeftClosed ⟨.fin 10, .fin 13, .inc, .inc⟩ :=
    ⟨.inr ⟨⟨_, rfl⟩, rfl⟩, .inr ⟨_, rfl⟩, .inl (by simp [FP.lt_def, FP.leb])⟩
  have hO : (Region.num (embI Fun.ival ⟨.fin 10, .fin 13, .inc, .inc⟩)).OK := hI.ok Fun.ival_strictMono
  obtain ⟨-, h5⟩ := C47_numeric_evidence_partial Fun.ival_strictMono (idx := Rat.floor) (fun n => by simp [Fun.ival])
    Rat.floor (1 / 100) (exM.cfg 6) exMKind exMData 6 exM_kind exM_data exM_floats h h1 [] (by simp) exMBetween
    ⟨by simp [exMBetween], by
      intro i hi
      simp only [exMBetween, List.mem_singleton] at hi
      subst hi
      exact ⟨by decide, .inr ⟨_, hI, rfl⟩, hO⟩⟩ (by simp [exMBetween]) (by
      intro i hi
      simp only [exMBetween, List.mem_singleton] at hi
      subst hi
      simp [Region.point, embI, emb, Fun.ival]) (by
      intro l hle hpos i hi _
      simp only [exMBetween, List.mem_singleton] at hi
      subst hi
      refine ⟨_, hI, rfl, ?_⟩
      have hm : (l.2.rows, decide (0 < leafProb (mixP Fun.ival Rat.floor) l.2 exMBetween))
          ∈ [([0, 1, 2], false), ([3, 4, 5], true)] := by
        rw [← h2]
        exact List.mem_map.2 ⟨l, hle, rfl⟩
      rw [decide_eq_true hpos] at hm
      have hrows : l.2.rows = [3, 4, 5] := by simpa using hm
      rw [hrows, show ([3, 4, 5] : List ℕ).map (fun r => Rat.floor (exMData r 0)) = [10, 12, 14] by decide +kernel]
      refine .inr ⟨10, 14, 13, by simp, by simp, by simp, rfl, rfl, by decide, by decide, ?_, ?_, ?_⟩
      · simp [CS.Mem, FP.lt_def, FP.leb]
      · simp [CS.Mem, FP.lt_def, FP.leb]
      · simp [CS.Mem, FP.lt_def, FP.leb])
  obtain ⟨h', ps, h6, -, -, -, h7, -⟩ := h5 (by rw [h3]; norm_num)
  refine ⟨h, h', ps, h1, h6, ?_⟩
  have hJ : LeftClosed ⟨.ninf, .fin 12, .exc, .inc⟩ := ⟨.inl ⟨rfl, rfl⟩, .inr ⟨_, rfl⟩, .inl (by simp [FP.lt_def, FP.leb])⟩
  have := h7 [(0, .num ⟨.ninf, .fin 12, .exc, .inc⟩)] ⟨by simp, by
    intro i hi
    simp only [List.mem_singleton] at hi
    subst hi
    exact ⟨by decide, .inr ⟨_, hJ, rfl⟩, hJ.ok Fun.ival_strictMono⟩⟩
  rw [h4, h3] at this
  refine (this _).trans ?_
  norm_num

/-- Evidence that exceeds the greatest value of a leaf it reaches gives a tree whose answers are no probabilities: the tree
over numbers has the leaves {0, 2, 4} and {10, 12, 14}, and conditioned on `2 ≤ x ≤ 13` it answers 23/20 to
`0 ≤ x ≤ 20`, which is certain. -/
theorem C47_violated_beyond_greatest :
    ∃ h, learn (exM.cfg 6) exMData 6 (fitMix Fun.ival Rat.floor (1 / 100) exMKind exMData) = .ok h ∧
      h.leaves.map (fun l => l.2.rows.map (fun r => exMData r 0)) = [[0, 2, 4], [10, 12, 14]] ∧
      infer (mixOps ℤ Fun.ival Rat.floor Rat.floor) 2 (fullOf (exM.cfg 6)) h
        [(0, .num ⟨.fin 0, .fin 20, .inc, .inc⟩)] [(0, .num ⟨.fin 2, .fin 13, .inc, .inc⟩)] = .ok (some 1) ∧
      ((conditional (mixOps ℤ Fun.ival Rat.floor Rat.floor) 2 (fullOf (exM.cfg 6)) h []
        [(0, .num ⟨.fin 2, .fin 13, .inc, .inc⟩)]).toOption.bind (fun r =>
          (infer (mixOps ℤ Fun.ival Rat.floor Rat.floor) 2 (fullOf (exM.cfg 6)) r.1
            [(0, .num ⟨.fin 0, .fin 20, .inc, .inc⟩)] []).toOption)) = some (some (23 / 20)) :=
  exists_ok (by decide +kernel)

end Verif.Trees
