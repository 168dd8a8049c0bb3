import Verif.Trees.Learned2
import Verif.Trees.Props2
import Verif.Numeric.Props

/-!
# Queries on learned trees with numeric variables: C45

Without closing the gaps between the leaves (`close_convex_gaps=False`).
-/

namespace Verif.Trees

open Learn (Cfg Data learn DataOK fullOf exists_ok)
open Iv (FP CS Br)

variable {L : Type} [DecidableEq L]

/-- For all trees learned over numeric, symbolic and integer variables, from tables whose numbers and their means
are floats: `infer` returns the conditional probability.  The trees are those of `learn(close_convex_gaps=False)`, see
C83 for what closing the gaps does. -/
theorem C45_learned_mixed {val : ℤ → ℚ} (hval : StrictMono val) {idx : ℚ → ℤ} (hidx : ∀ n, idx (val n) = n)
    (rnd : ℚ → ℤ) (eps : ℚ) (c : Cfg) (kind : ℕ → MK L) (data : Data) (total : ℕ) (hk : Kinds c kind)
    (hdata : DataOK c data total) (hfl : Floats val c data total) (h : Heap (MD L))
    (hl : learn c data total (fitMix val idx eps kind data) = .ok h) (q e : Query)
    (hq : QueryOK (mixFits val) kind c.vars.length q) (he : QueryOK (mixFits val) kind c.vars.length e) :
    (mass (mixP val idx) h e = 0 → infer (mixOps L val idx rnd) c.vars.length (fullOf c) h q e true = .error .valueError ∧
      infer (mixOps L val idx rnd) c.vars.length (fullOf c) h q e false = .ok none) ∧
    (mass (mixP val idx) h e ≠ 0 →
      (∃ x, 0 ≤ x ∧ x ≤ 1 ∧ ∀ fail, infer (mixOps L val idx rnd) c.vars.length (fullOf c) h q e fail = .ok (some x)) ∧
      ((∀ i ∈ q, ∀ j ∈ e, i.1 ≠ j.1) → ∀ fail,
        infer (mixOps L val idx rnd) c.vars.length (fullOf c) h q e fail
          = .ok (some (mass (mixP val idx) h (q ++ e) / mass (mixP val idx) h e)))) := by
  have hT := learned_mix hval hidx hk hdata hfl hl
  have h1 := C45_range (mix_laws hval hidx rnd) hT hq he
  exact ⟨h1.1, fun hm => ⟨h1.2 hm, fun hdis fail => C45_infer_apart (mix_laws hval hidx rnd) hT hq he hdis fail hm⟩⟩

omit [DecidableEq L] in
/-- The probabilities in `mass` for numeric variables: the leaf's distribution is the one fitted to the leaf's rows,
and the probability of an interval is that which the distribution gives to it (see C74). -/
theorem C45_learned_leaves {val : ℤ → ℚ} (hval : StrictMono val) {idx : ℚ → ℤ} (hidx : ∀ n, idx (val n) = n)
    (eps : ℚ) (c : Cfg) (kind : ℕ → MK L) (data : Data) (total : ℕ) (hk : Kinds c kind)
    (hdata : DataOK c data total) (hfl : Floats val c data total) (h : Heap (MD L))
    (hl : learn c data total (fitMix val idx eps kind data) = .ok h) :
    ∀ l ∈ h.leaves, ∀ v, c.vars[v]? = some .numeric → ∃ d, l.2.dists[v]? = some (.inl d) ∧
      Num.fit val eps (l.2.rows.map (fun r => idx (data r v))) = .ok d ∧
      ∀ I, LeftClosed I → Num.prob val d (.interval I) = .ok (mixP (L := L) val idx (.inl d) (.num (embI val I))) := by
  intro l hle v hv
  obtain ⟨ix, hI⟩ := Learn.learn_inv hdata hl
  have hlt : v < c.vars.length := (List.getElem?_eq_some_iff.1 hv).1
  have hkd : kind v = .inl () := by
    rcases hk v hlt with ⟨_, h2⟩ | ⟨b, dom, _, _, h3 | h3⟩
    · exact h2
    · rw [hv] at h3; cases h3.1
    · rw [hv] at h3; cases h3.1
  have hrow : ∀ r ∈ l.2.rows, r < total := by
    intro r hr
    have := hI.rows.mem_iff (a := r)
    simp only [List.flatMap_nil, List.append_nil, List.mem_flatMap, List.mem_range] at this
    exact this.1 ⟨l, hle, hr⟩
  have hflr : ∀ r ∈ l.2.rows, ∃ n, data r v = val n := by
    intro r hr
    obtain ⟨n, hn⟩ := hfl v hv r r (hrow r hr) (hrow r hr)
    exact ⟨n, by rw [← hn]; ring⟩
  obtain ⟨h1, h2, -⟩ := fitNum_spec (eps := eps) hval hidx (hI.leaf l hle).nonempty hflr
  refine ⟨fitNum val idx eps data l.2.rows v, ?_, h1, ?_⟩
  · rw [(hI.leaf l hle).dists, List.getElem?_map, List.getElem?_range hlt]
    simp [fitMix, hkd]
  · intro I hI'
    have hx := (num_laws hval hidx idx).p_ok () _ (.num (embI val I)) h2 (.inr ⟨I, hI', rfl⟩)
    simp only [numOps, numArg, toCS_emb hidx, bind, Except.bind] at hx
    exact hx

/-! ## Example -/

/-- A numeric and a symbolic variable. -/
def exM : Learn.Args := ⟨[.numeric, .symbolic 2], [], [], .int 3, none, none, none, fun _ => false⟩

def exMKind : ℕ → MK ℤ
  | 0 => .inl ()
  | _ => .inr (false, ⟨"W", [10, 20]⟩)

def exMData : Data := fun r v =>
  (([[0, 0], [2, 0], [4, 1], [10, 1], [12, 1], [14, 1]] : List (List ℚ)).getD r []).getD v 0

theorem exM_kind : Kinds (exM.cfg 6) exMKind := by
  intro v hv
  match v, hv with
  | 0, _ => exact .inl ⟨rfl, rfl⟩
  | 1, _ => exact .inr ⟨_, _, rfl, by decide, .inr ⟨rfl, rfl⟩⟩
  | v + 2, hv => exact absurd hv (by simp [exM, Learn.Args.cfg])

theorem exM_data : DataOK (exM.cfg 6) exMData 6 := by
  intro r hr v n hv
  have hcases : r = 0 ∨ r = 1 ∨ r = 2 ∨ r = 3 ∨ r = 4 ∨ r = 5 := by omega
  match v, hv with
  | 0, hv => rcases hv with hv | hv <;> exact absurd hv (by simp [exM, Learn.Args.cfg])
  | 1, hv =>
    have : n = 2 := by
      rcases hv with hv | hv
      · exact absurd hv (by simp [exM, Learn.Args.cfg])
      · injection hv with hv; injection hv with hv; exact hv.symm
    subst this
    rcases hcases with rfl | rfl | rfl | rfl | rfl | rfl
    · exact ⟨0, by decide, by decide +kernel⟩
    · exact ⟨0, by decide, by decide +kernel⟩
    · exact ⟨1, by decide, by decide +kernel⟩
    · exact ⟨1, by decide, by decide +kernel⟩
    · exact ⟨1, by decide, by decide +kernel⟩
    · exact ⟨1, by decide, by decide +kernel⟩
  | v + 2, hv => rcases hv with hv | hv <;> exact absurd hv (by simp [exM, Learn.Args.cfg])

theorem exM_floats : Floats Fun.ival (exM.cfg 6) exMData 6 := by
  intro v hv r r' hr hr'
  have key : ∀ r < 6, ∃ k : ℤ, exMData r 0 = 2 * k := by
    intro r hr
    have hcases : r = 0 ∨ r = 1 ∨ r = 2 ∨ r = 3 ∨ r = 4 ∨ r = 5 := by omega
    rcases hcases with rfl | rfl | rfl | rfl | rfl | rfl
    · exact ⟨0, by decide +kernel⟩
    · exact ⟨1, by decide +kernel⟩
    · exact ⟨2, by decide +kernel⟩
    · exact ⟨5, by decide +kernel⟩
    · exact ⟨6, by decide +kernel⟩
    · exact ⟨7, by decide +kernel⟩
  match v, hv with
  | 0, _ =>
    obtain ⟨a, ha⟩ := key r hr
    obtain ⟨b, hb⟩ := key r' hr'
    refine ⟨a + b, ?_⟩
    rw [ha, hb]
    simp only [Fun.ival, Int.cast_add]
    ring
  | 1, hv => exact absurd hv (by simp [exM, Learn.Args.cfg])
  | v + 2, hv => exact absurd hv (by simp [exM, Learn.Args.cfg])

example : ∀ n, Rat.floor (Fun.ival n) = n := fun n => by simp [Fun.ival]

example : LeftClosed ⟨.ninf, .fin 3, .exc, .exc⟩ ∧
    embI Fun.ival ⟨.ninf, .fin 3, .exc, .exc⟩ = ⟨.ninf, .fin 3, .exc, .exc⟩ :=
  ⟨⟨.inl ⟨rfl, rfl⟩, .inr ⟨3, rfl⟩, .inl (by simp [FP.lt_def, FP.leb])⟩, by simp [embI, emb, Fun.ival]⟩

/-- The tree splits the rows in two leaves; the numeric variable is uniform on (0,2] and (2,4] in the first. -/
example : ∃ h, learn (exM.cfg 6) exMData 6 (fitMix Fun.ival Rat.floor (1 / 100) exMKind exMData) = .ok h ∧
    h.leaves.map (fun l => l.2.rows) = [[0, 1, 2], [3, 4, 5]] ∧
    mass (mixP Fun.ival Rat.floor) h [(1, .set [1])] = 2 / 3 ∧
    infer (mixOps ℤ Fun.ival Rat.floor Rat.floor) 2 (fullOf (exM.cfg 6)) h
      [(1, .set [1])] [(0, .num ⟨.ninf, .fin 4, .exc, .exc⟩)] = .ok (some (1 / 3)) ∧
    infer (mixOps ℤ Fun.ival Rat.floor Rat.floor) 2 (fullOf (exM.cfg 6)) h
      [(0, .num ⟨.ninf, .fin 3, .exc, .exc⟩)] [(1, .set [1])] = .ok (some (3 / 16)) := exists_ok (by decide +kernel)

end Verif.Trees
