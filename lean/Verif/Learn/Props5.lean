import Verif.Learn.Model
import Verif.Learn.Props4

/-!
# C132: the dependency matrices and the model of the learner

The model of the learner (`Learn/Model`) keeps the statistics by target and asks whether a target is in the list of dependents.  Here: the
arrays by position, changed by the loops over the rows of the dependency matrices, always hold what that model says.
-/

namespace Verif.Dep

variable {K : Type} [DecidableEq K]

/-- The arrays hold the statistics of the numeric targets. -/
def HoldsNum (ts : List ℕ) (s : Sums) (st : Verif.Learn.ESt) : Prop :=
  ∀ j t, ts[j]? = some t → s.left j = st.sl t ∧ s.right j = st.sr t ∧ s.sqLeft j = st.ql t ∧ s.sqRight j = st.qr t

/-- The arrays hold the histograms of the symbolic targets. -/
def HoldsSym (ts : List ℕ) (s : Hists) (st : Verif.Learn.ESt) : Prop :=
  ∀ j t, ts[j]? = some t → ∀ u, s.left j u = st.cl t u ∧ s.right j u = st.cr t u

/-- One row moved with the matrices is one row moved in the model of the learner; hence so is any number of rows. -/
theorem C132_learner {vars : List K} {deps : List (K × List K)} {fs nts sts : List ℕ} {n : ℕ} {M N : ℕ → List Int} (hv : vars.Nodup)
    (hd : Dict.WF deps) (hf : ∀ f ∈ fs, f < vars.length) (hnt : ∀ t ∈ nts, t < vars.length) (hst : ∀ t ∈ sts, t < vars.length)
    (hM : build vars deps fs nts n = .ok M) (hN : build vars deps fs sts n = .ok N) {v : ℕ} (hm : v ∈ fs)
    (ds : List ℕ) (hds : ∀ t, t ∈ nts ∨ t ∈ sts → (t ∈ ds ↔ Depends vars deps v t))
    (T : Verif.Learn.Totals) (data : ℕ → ℕ → ℚ) (rows : List ℕ) (tot sq : ℕ → ℚ) (cnt : ℕ → ℕ → Int)
    (ht : ∀ j t, nts[j]? = some t → tot j = T.sum t ∧ sq j = T.sq t) (hc : ∀ j t, sts[j]? = some t → ∀ u, cnt j u = T.cnt t u) :
    ∀ (s : Sums) (h : Hists) (st : Verif.Learn.ESt), HoldsNum nts s st → HoldsSym sts h st →
      HoldsNum nts (rows.foldl (fun s r => walk (addNum (data r) nts tot sq) (M v) s) s)
        (rows.foldl (fun st r => Verif.Learn.ESt.add T data ds r st) st)
      ∧ HoldsSym sts (rows.foldl (fun h r => walk (addSym (fun t => Verif.Learn.valIdx (data r t)) sts cnt) (N v) h) h)
        (rows.foldl (fun st r => Verif.Learn.ESt.add T data ds r st) st) := by
  induction rows with
  | nil => intro s h st h1 h2; exact ⟨h1, h2⟩
  | cons r rows ih =>
    intro s h st h1 h2
    simp only [List.foldl_cons]
    refine ih _ _ _ ?_ ?_
    · intro j t hj
      have sp := C132_numeric hv hd hf hnt hM hm (data r) tot sq s j
      obtain ⟨e1, e2, e3, e4⟩ := h1 j t hj
      obtain ⟨e5, e6⟩ := ht j t hj
      have hk := hds t (Or.inl (List.mem_of_getElem? hj))
      by_cases hdep : Depends vars deps v t
      · obtain ⟨a1, a2, a3, a4⟩ := sp.1 t hj hdep
        have hin := hk.2 hdep
        simp only [a1, a2, a3, a4, Verif.Learn.ESt.add, hin, ite_true, e1, e3, e5, e6, pow_two, and_self]
      · obtain ⟨a1, a2, a3, a4⟩ := sp.2 (fun t' ht' => by rw [hj] at ht'; cases ht'; exact hdep)
        have hin : t ∉ ds := fun h => hdep (hk.1 h)
        simp only [a1, a2, a3, a4, Verif.Learn.ESt.add, hin, ite_false, e1, e2, e3, e4, and_self]
    · intro j t hj u
      have sp := C132_symbolic hv hd hf hst hN hm (fun t => Verif.Learn.valIdx (data r t)) cnt h j u
      obtain ⟨e1, e2⟩ := h2 j t hj u
      have e5 := hc j t hj u
      have hk := hds t (Or.inr (List.mem_of_getElem? hj))
      by_cases hdep : Depends vars deps v t ∧ u = Verif.Learn.valIdx (data r t)
      · obtain ⟨a1, a2⟩ := sp.1 t hj hdep.1 hdep.2
        have hin : t ∈ ds ∧ u = Verif.Learn.valIdx (data r t) := ⟨hk.2 hdep.1, hdep.2⟩
        simp only [a1, a2, Verif.Learn.ESt.add, if_pos hin, e1, e5, and_self]
      · obtain ⟨a1, a2⟩ := sp.2 (fun t' ht' hd' hu => by rw [hj] at ht'; cases ht'; exact hdep ⟨hd', hu⟩)
        have hin : ¬ (t ∈ ds ∧ u = Verif.Learn.valIdx (data r t)) := fun h => hdep ⟨hk.1 h.1, h.2⟩
        simp only [a1, a2, Verif.Learn.ESt.add, if_neg hin, e1, e2, and_self]

/-- The arrays at the start of the loop hold the statistics at its start. -/
theorem C132_learner_start (ts : List ℕ) (T : Verif.Learn.Totals) (tot sq : ℕ → ℚ) (cnt : ℕ → ℕ → Int)
    (ht : ∀ j t, ts[j]? = some t → tot j = T.sum t ∧ sq j = T.sq t) (hc : ∀ j t, ts[j]? = some t → ∀ u, cnt j u = T.cnt t u) :
    HoldsNum ts ⟨fun _ => 0, tot, fun _ => 0, sq⟩ (Verif.Learn.ESt.init T) ∧ HoldsSym ts ⟨fun _ _ => 0, cnt⟩ (Verif.Learn.ESt.init T) := by
  refine ⟨fun j t hj => ⟨rfl, (ht j t hj).1, rfl, (ht j t hj).2⟩, fun j t hj u => ⟨rfl, hc j t hj u⟩⟩

/-- The hypotheses on lists and totals can be met: two variables, both depend on both. -/
example : (∃ M, build ["a", "b"] [("a", ["a", "b"]), ("b", ["a", "b"])] [0, 1] [0] 2 = .ok M ∧ M 1 = [0, -1])
    ∧ (∃ N, build ["a", "b"] [("a", ["a", "b"]), ("b", ["a", "b"])] [0, 1] [1] 2 = .ok N ∧ N 1 = [0, -1])
    ∧ ∀ t, t ∈ [0] ∨ t ∈ [1] → (t ∈ [0, 1] ↔ Depends ["a", "b"] [("a", ["a", "b"]), ("b", ["a", "b"])] 1 t) := by
  refine ⟨⟨_, rfl, by decide +kernel⟩, ⟨_, rfl, by decide +kernel⟩, fun t ht => ?_⟩
  have : t = 0 ∨ t = 1 := by simpa using ht
  rcases this with rfl | rfl
  · exact ⟨fun _ => ⟨"b", "a", ["a", "b"], rfl, rfl, by simp, by simp⟩, fun _ => by simp⟩
  · exact ⟨fun _ => ⟨"b", "b", ["a", "b"], rfl, rfl, by simp, by simp⟩, fun _ => by simp⟩

end Verif.Dep
