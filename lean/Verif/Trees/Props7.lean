import Verif.Trees.StateLemmas
import Verif.Trees.Props6
import Verif.Numeric.Props10

/-!
# Queries leave the tree as it is: C79
-/

namespace Verif.Trees

open Learn (Cfg Data learn DataOK fullOf exists_ok)
open Iv (FP CS Br)

variable {L : Type} [DecidableEq L]

/-- `_crop` of the distributions of a tree with numeric, symbolic and integer variables. -/
abbrev mixCrop (L : Type) [DecidableEq L] (val : ℤ → ℚ) (idx rnd : ℚ → ℤ) : CropSt (MD L) :=
  sumCrop (numCrop val idx rnd) (discOps L)

theorem numCrop_keeps {val : ℤ → ℚ} {idx rnd : ℚ → ℤ} {d : Fun.PF} {r : Region}
    (h : ∀ c, r = .num c → (toCS idx c).size ≠ some 1) :
    numCrop val idx rnd d r = ((numOps val idx rnd).crop d r).map (fun c => (c, d)) := by
  cases r with
  | set l => rfl
  | num c =>
    have hs := h c rfl
    simp only [numCrop, numOps, numArg, bind, Except.bind, Num.cropTo, Num.cropInterval', if_neg hs]
    cases Num.crop val d (toCS idx c) with
    | error x => rfl
    | ok c => rfl

/-- `posterior` leaves any tree as it was, if the evidence on a numeric variable, restricted to the region of a leaf,
never is a single float.

Partial: see `C79_violated_posterior`. -/
theorem C79_posterior_partial {val : ℤ → ℚ} {idx rnd : ℚ → ℤ} {n : ℕ} {full : ℕ → Region} {h : Heap (MD L)}
    (hids : (h.leaves.map Prod.fst).Nodup) {e : Query}
    (he : ∀ l ∈ h.leaves, ∀ v r R c, e.lookup v = some r → (pathMap full l.2.path).lookup v = some R →
      r.inter R = .num c → Num.Several (toCS idx c)) (vs : List ℕ) :
    posteriorSt (mixOps L val idx rnd) (mixCrop L val idx rnd) n full h vs e
      = (posterior (mixOps L val idx rnd) n full h vs e).map (fun r => (r, h)) := by
  apply posterior_keeps hids
  intro l hl v r R d hr hR hd
  cases d with
  | inl d =>
    have := numCrop_keeps (val := val) (idx := idx) (rnd := rnd) (d := d) (r := r.inter R)
      (fun c hc => (he l hl v r R c hr hR hc).size)
    simp only [mixCrop, sumCrop, mixOps, sumOps, this]
    cases (numOps val idx rnd).crop d (r.inter R) with
    | error x => rfl
    | ok c => rfl
  | inr d =>
    simp only [mixCrop, sumCrop, mixOps, sumOps]
    cases (discOps L).crop d (r.inter R) with
    | error x => rfl
    | ok c => rfl

/-- Trees without numeric variables are never changed by `posterior`. -/
theorem C79_posterior_discrete {val : ℤ → ℚ} {idx rnd : ℚ → ℤ} {n : ℕ} {full : ℕ → Region} {h : Heap (MD L)}
    (hids : (h.leaves.map Prod.fst).Nodup) (hdisc : ∀ l ∈ h.leaves, ∀ d ∈ l.2.dists, ∃ x, d = .inr x) (e : Query)
    (vs : List ℕ) :
    posteriorSt (mixOps L val idx rnd) (mixCrop L val idx rnd) n full h vs e
      = (posterior (mixOps L val idx rnd) n full h vs e).map (fun r => (r, h)) := by
  apply posterior_keeps hids
  intro l hl v r R d hr hR hd
  obtain ⟨d, rfl⟩ := hdisc l hl d (List.mem_of_getElem? hd)
  simp only [mixCrop, sumCrop, mixOps, sumOps]
  cases (discOps L).crop d (r.inter R) with
  | error x => rfl
  | ok c => rfl

/-! ## Examples -/

/-- The tree of `exM`. -/
abbrev exML := learn (exM.cfg 6) exMData 6 (fitMix Fun.ival Rat.floor (1 / 100) exMKind exMData)

/-- Its posteriors. -/
abbrev exMP (h : Heap (MD ℤ)) (vs : List ℕ) (e : Query) :=
  posteriorSt (mixOps ℤ Fun.ival Rat.floor Rat.floor) (mixCrop ℤ Fun.ival Rat.floor Rat.floor) 2 (fullOf (exM.cfg 6)) h vs e

/-- Its probability of values below 2. -/
abbrev exMI (h : Heap (MD ℤ)) : Except Err (Option ℚ) :=
  infer (mixOps ℤ Fun.ival Rat.floor Rat.floor) 2 (fullOf (exM.cfg 6)) h [(0, .num ⟨.ninf, .fin 2, .exc, .exc⟩)] []

/-- C79 is violated: asking for the posterior given that a numeric variable has a certain value replaces its
distribution in the leaf, and later queries return something else.  Here the probability of values below 2 is 1/4
before and 0 after the query. -/
theorem C79_violated_posterior : ∃ (c : Cfg) (kind : ℕ → MK ℤ) (data : Data) (total : ℕ) (h h' : Heap (MD ℤ))
    (vs : List ℕ) (e q : Query) (res : List (ℕ × MD ℤ)), Kinds c kind ∧ DataOK c data total ∧
    Floats Fun.ival c data total ∧
    learn c data total (fitMix Fun.ival Rat.floor (1 / 100) kind data) = .ok h ∧
    posteriorSt (mixOps ℤ Fun.ival Rat.floor Rat.floor) (mixCrop ℤ Fun.ival Rat.floor Rat.floor) c.vars.length
      (fullOf c) h vs e = .ok (res, h') ∧
    infer (mixOps ℤ Fun.ival Rat.floor Rat.floor) c.vars.length (fullOf c) h q [] = .ok (some (1 / 4)) ∧
    infer (mixOps ℤ Fun.ival Rat.floor Rat.floor) c.vars.length (fullOf c) h' q [] = .ok (some 0) := by
  obtain ⟨h, h1, h2⟩ : ∃ h, exML = .ok h ∧ okAnd (exMP h [1, 0] [(0, .num ⟨.fin 2, .fin 2, .inc, .inc⟩)])
      (fun r => decide (exMI h = .ok (some (1 / 4)) ∧ exMI r.2 = .ok (some 0))) = true :=
    exists_ok (by decide +kernel)
  obtain ⟨⟨res, h'⟩, h3, h4⟩ := okAnd_true h2
  have h5 := of_decide_eq_true h4
  exact ⟨exM.cfg 6, exMKind, exMData, 6, h, h', [1, 0], _, _, res, exM_kind, exM_data, exM_floats, h1, h3, h5.1, h5.2⟩

/-- An interval as evidence does not change this tree. -/
example : ∃ h r, exML = .ok h ∧ exMP h [1, 0] [(0, .num ⟨.ninf, .fin 3, .exc, .exc⟩)] = .ok (r, h) := by
  obtain ⟨h, h1, h2, h3, h4⟩ : ∃ h, exML = .ok h ∧ ((h.leaves.map Prod.fst).Nodup ∧
      (∀ l ∈ h.leaves,
        (pathMap (fullOf (exM.cfg 6)) l.2.path).lookup 0 = some (.num ⟨.ninf, .fin 7, .exc, .exc⟩) ∨
        (pathMap (fullOf (exM.cfg 6)) l.2.path).lookup 0 = some (.num ⟨.fin 7, .pinf, .inc, .exc⟩)) ∧
      okAnd (posterior (mixOps ℤ Fun.ival Rat.floor Rat.floor) 2 (fullOf (exM.cfg 6)) h [1, 0]
        [(0, .num ⟨.ninf, .fin 3, .exc, .exc⟩)]) (fun _ => true) = true) :=
    exists_ok (by decide +kernel)
  obtain ⟨r, h5, -⟩ := okAnd_true h4
  refine ⟨h, r, h1, ?_⟩
  have := C79_posterior_partial (L := ℤ) (val := Fun.ival) (idx := Rat.floor) (rnd := Rat.floor) (n := 2)
    (full := fullOf (exM.cfg 6)) h2 (e := [(0, .num ⟨.ninf, .fin 3, .exc, .exc⟩)]) (by
      intro l hl v r R c hr hR hc
      by_cases hv : v = 0
      · subst hv
        cases hr
        rcases h3 l hl with h | h
        · rw [hR] at h
          cases h
          have : c = ⟨.ninf, .fin 3, .exc, .exc⟩ :=
            (Region.num.inj (hc.symm.trans (by decide +kernel : _ = Region.num ⟨.ninf, .fin 3, .exc, .exc⟩)))
          subst this
          exact .inr ⟨0, 1, by decide, by decide +kernel, by decide +kernel⟩
        · rw [hR] at h
          cases h
          have : c = riEmptyset := (Region.num.inj (hc.symm.trans (by decide +kernel : _ = Region.num riEmptyset)))
          subst this
          exact .inl (by decide +kernel)
      · have hv' : (v == 0) = false := by simpa using hv
        simp [List.lookup, hv'] at hr) [1, 0]
  rw [h5] at this
  exact this

end Verif.Trees
