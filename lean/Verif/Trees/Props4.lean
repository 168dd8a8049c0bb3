import Verif.Trees.Lemmas13
import Verif.Trees.Props3

/-!
# Properties of pruning: C51
-/

namespace Verif.Trees

open Learn (Cfg Data learn DataOK fullOf exists_ok)

variable {D E K : Type} {o : DistOps D E} {ok : K → D → Prop} {fits : K → Region → Prop}
  {P : D → Region → ℚ} {kind : ℕ → K} {full : ℕ → Region} {n : ℕ} {h : Heap D}

theorem prune_spec (L : Laws o ok fits P) (hsim : ∀ k d e, ok k d → ok k e → ∃ x, o.similarity d e = .ok x)
    (hT : TreeOK ok fits P kind full n h) (hbin : Binary h) (hsort : Sorted h)
    (hpos : ∀ e ∈ h.leaves, 0 < e.2.prior) (θ : ℚ) (J : Heap D → Prop)
    (hJ : ∀ h1 h2, PInv ok fits P kind full n h h1 → MergeStep o ok fits P kind n θ h1 h2 → J h1 → J h2)
    (hj : J h) :
    ∃ h', prune o n θ h = .ok h' ∧ PInv ok fits P kind full n h h' ∧ J h' ∧
      ∀ k il ir nd l r, Siblings h' k il ir nd l r → Differ o n θ nd.var l r := by
  have I : PInv ok fits P kind full n h h :=
    ⟨hT, hbin, hsort, hpos, rfl, rfl, rfl, le_refl _, fun _ _ _ _ => rfl⟩
  obtain ⟨h', h1, h2⟩ := pruneLoop_spec L hsim θ J hJ (2 * h.inner.length) h (h.inner.map Prod.fst) I hj
    (by rw [List.length_map]; omega)
    (fun k il ir nd l r S => .inl (Dict.lookup_isSome.1 ⟨nd, S.node⟩))
  refine ⟨h', ?_, h2⟩
  unfold prune
  rw [(C52_nodes L hT hsort [] (by simp)).1]
  exact h1

/-- Pruning a fitted tree with positive leaves succeeds for every threshold.  The result is again a fitted
tree with positive leaves; the sum of the priors and the total number of samples are the same, there are
no more leaves and each merge removes one leaf and one decision node; the probability of every set of
values of every single variable is the same; and no two leaves with a common parent remain that are at least
as similar as the threshold.  The original is unchanged because `prune` works on a copy (`C52_nodes`). -/
theorem C51_prune (L : Laws o ok fits P) (hsim : ∀ k d e, ok k d → ok k e → ∃ x, o.similarity d e = .ok x)
    (hT : TreeOK ok fits P kind full n h) (hbin : Binary h) (hsort : Sorted h)
    (hpos : ∀ e ∈ h.leaves, 0 < e.2.prior) (θ : ℚ) :
    ∃ h', prune o n θ h = .ok h' ∧
      (TreeOK ok fits P kind full n h' ∧ Binary h' ∧ Sorted h' ∧ ∀ e ∈ h'.leaves, 0 < e.2.prior) ∧
      (h'.leaves.map (fun e => e.2.prior)).sum = (h.leaves.map (fun e => e.2.prior)).sum ∧
      (h'.leaves.map (fun e => e.2.samples)).sum = (h.leaves.map (fun e => e.2.samples)).sum ∧
      h'.leaves.length ≤ h.leaves.length ∧
      h.leaves.length - h'.leaves.length = h.inner.length - h'.inner.length ∧
      (∀ v S, QueryOK fits kind n [(v, S)] → ∀ fail,
        infer o n full h' [(v, S)] [] fail = infer o n full h [(v, S)] [] fail) ∧
      (∀ k il ir nd l r, h'.inner.lookup k = some nd → nd.children = [some il, some ir] →
        h'.leaves.lookup il = some l → h'.leaves.lookup ir = some r →
        ∃ s, leafSim o n nd.var l r = .ok s ∧ ∀ x, s = some x → x < θ) := by
  obtain ⟨h', h1, I, -, h2⟩ := prune_spec L hsim hT hbin hsort hpos θ (fun _ => True) (fun _ _ _ _ _ => trivial)
    trivial
  have hless := I.less
  have hfew := I.fewer
  refine ⟨h', h1, ⟨I.tree, I.binary, I.sorted, I.pos⟩, I.priors, I.samples, by omega, by omega, ?_, ?_⟩
  · intro v S hq fail
    have hnil : QueryOK fits kind n [] := ⟨by simp, by simp⟩
    rw [infer_eq L I.tree hq hnil, infer_eq L hT hq hnil]
    have h3 : mass P h' [] = mass P h [] := by
      have := I.priors
      unfold mass leafProb
      simpa using this
    have h4 := I.marginal v S (hq.2 _ List.mem_cons_self).1 (hq.2 _ List.mem_cons_self).2.1
    have h5 : ∀ g : Heap D, (g.leaves.map (fun l => l.2.prior * (leafProb P l.2 [] * leafProb P l.2 [(v, S)]))).sum
        = mass P g [(v, S)] := by
      intro g
      unfold mass
      congr 1
      apply List.map_congr_left
      intro l _
      have : leafProb P l.2 [] = 1 := rfl
      rw [this, one_mul]
    rw [h3, h5, h5, h4]
  · intro k il ir nd l r e1 e2 e3 e4
    obtain ⟨s, h3, h4⟩ := h2 k il ir nd l r ⟨e1, e2, e3, e4⟩
    refine ⟨s, h3, ?_⟩
    rintro x rfl
    simpa [differ] using h4

theorem disc_sim {L : Type} [DecidableEq L] (k : Bool × Disc.Dom L) (d e : DD L) (_ : discOk k d) (_ : discOk k e) :
    ∃ x, (discOps L).similarity d e = .ok x := ⟨_, rfl⟩

theorem learned_pos {D : Type} {c : Cfg} {data : Data} {total : ℕ} {fit : List ℕ → ℕ → D}
    (hdata : DataOK c data total) {h : Heap D} (hl : learn c data total fit = .ok h) :
    ∀ e ∈ h.leaves, 0 < e.2.prior := by
  obtain ⟨idx, hI⟩ := Learn.learn_inv hdata hl
  intro e he
  have hrow : ∀ r ∈ e.2.rows, r < total := by
    intro r hr
    have := hI.rows.mem_iff (a := r)
    simp only [List.flatMap_nil, List.append_nil, List.mem_flatMap, List.mem_range] at this
    exact this.1 ⟨e, he, hr⟩
  rw [(hI.leaf e he).prior]
  have h1 : 0 < e.2.rows.length := List.length_pos_iff.2 (hI.leaf e he).nonempty
  obtain ⟨r, hr⟩ := List.exists_mem_of_length_pos h1
  have h2 : 0 < total := by have := hrow r hr; omega
  have h3 : (0 : ℚ) < (e.2.rows.length : ℚ) := by exact_mod_cast h1
  have h4 : (0 : ℚ) < (total : ℚ) := by exact_mod_cast h2
  exact div_pos h3 h4

/-- For all trees learned over symbolic and integer variables and all thresholds. -/
theorem C51_learned {L : Type} [DecidableEq L] (c : Cfg) (kind : ℕ → Bool × Disc.Dom L) (data : Data)
    (total : ℕ) (hk : Discrete c kind) (hdata : DataOK c data total) (h : Heap (DD L))
    (hl : learn c data total (fitDisc kind data) = .ok h) (θ : ℚ) :
    ∃ h', prune (discOps L) c.vars.length θ h = .ok h' ∧
      (h'.leaves.map (fun e => e.2.prior)).sum = (h.leaves.map (fun e => e.2.prior)).sum ∧
      (h'.leaves.map (fun e => e.2.samples)).sum = (h.leaves.map (fun e => e.2.samples)).sum ∧
      h'.leaves.length ≤ h.leaves.length ∧
      ∀ v S, QueryOK discFits kind c.vars.length [(v, S)] → ∀ fail,
        infer (discOps L) c.vars.length (fullOf c) h' [(v, S)] [] fail
          = infer (discOps L) c.vars.length (fullOf c) h [(v, S)] [] fail := by
  obtain ⟨hb, hs⟩ := learned_binary hdata hl
  obtain ⟨h', h1, -, h2, h3, h4, -, h5, -⟩ := C51_prune disc_laws disc_sim (learned_ok hk hdata hl) hb hs
    (learned_pos hdata hl) θ
  exact ⟨h', h1, h2, h3, h4, h5⟩

/-- With a threshold of one or more only leaves that agree in all variables but the one they are split by
are merged, and the answers to all queries with all evidence are the same. -/
theorem C51_lossless (L : Laws o ok fits P) (hsim : ∀ k d e, ok k d → ok k e → ∃ x, o.similarity d e = .ok x)
    (hsame : ∀ k d e x, ok k d → ok k e → o.similarity d e = .ok (some x) →
      x ≤ 1 ∧ (x = 1 → ∀ s, fits k s → P d s = P e s))
    (hT : TreeOK ok fits P kind full n h) (hbin : Binary h) (hsort : Sorted h)
    (hpos : ∀ e ∈ h.leaves, 0 < e.2.prior) (θ : ℚ) (hθ : 1 ≤ θ) :
    ∃ h', prune o n θ h = .ok h' ∧ ∀ q, QueryOK fits kind n q → mass P h' q = mass P h q ∧
      ∀ fail, infer o n full h' q [] fail = infer o n full h q [] fail := by
  obtain ⟨h', h1, I, h2, -⟩ := prune_spec L hsim hT hbin hsort hpos θ
    (fun g => ∀ q, QueryOK fits kind n q → mass P g q = mass P h q)
    (by
      intro g g' I hm hg q hq
      rw [merge_lossless hsame hθ I.tree I.pos hm hq, hg q hq])
    (fun _ _ => rfl)
  refine ⟨h', h1, fun q hq => ⟨h2 q hq, fun fail => ?_⟩⟩
  have hnil : QueryOK fits kind n [] := ⟨by simp, by simp⟩
  have h5 : ∀ g : Heap D, (g.leaves.map (fun l => l.2.prior * (leafProb P l.2 [] * leafProb P l.2 q))).sum
      = mass P g q := by
    intro g
    unfold mass
    congr 1
    apply List.map_congr_left
    intro l _
    have : leafProb P l.2 [] = 1 := rfl
    rw [this, one_mul]
  rw [infer_eq L I.tree hq hnil, infer_eq L hT hq hnil, h5, h5, h2 q hq, h2 [] hnil]

/-- The similarity of discrete distributions is at most one, and one only for equal distributions. -/
theorem disc_same {L : Type} [DecidableEq L] (k : Bool × Disc.Dom L) (d e : DD L) (x : ℚ) (hd : discOk k d)
    (he : discOk k e) (hx : (discOps L).similarity d e = .ok (some x)) :
    x ≤ 1 ∧ (x = 1 → ∀ s, discFits k s → discP d s = discP e s) := by
  have hx' : Disc.jaccard d.2 e.2 = some x := by
    injection hx
  obtain ⟨j, h1, -, -, h2, h3⟩ := Disc.C34_jaccard d.2 e.2 hd.2.2 he.2.2 (by rw [hd.2.1, he.2.1])
  rw [hx'] at h1
  cases h1
  refine ⟨h2, ?_⟩
  intro hone s _
  have := h3.1 hone
  unfold discP
  rw [this]

/-- For all trees learned over symbolic and integer variables. -/
theorem C51_learned_lossless {L : Type} [DecidableEq L] (c : Cfg) (kind : ℕ → Bool × Disc.Dom L) (data : Data)
    (total : ℕ) (hk : Discrete c kind) (hdata : DataOK c data total) (h : Heap (DD L))
    (hl : learn c data total (fitDisc kind data) = .ok h) (θ : ℚ) (hθ : 1 ≤ θ) :
    ∃ h', prune (discOps L) c.vars.length θ h = .ok h' ∧ ∀ q, QueryOK discFits kind c.vars.length q → ∀ fail,
      infer (discOps L) c.vars.length (fullOf c) h' q [] fail
        = infer (discOps L) c.vars.length (fullOf c) h q [] fail := by
  obtain ⟨hb, hs⟩ := learned_binary hdata hl
  obtain ⟨h', h1, h2⟩ := C51_lossless disc_laws disc_sim disc_same (learned_ok hk hdata hl) hb hs
    (learned_pos hdata hl) θ hθ
  exact ⟨h', h1, fun q hq => (h2 q hq).2⟩

/-- The hypotheses hold for a tree with four leaves. -/
example : ∃ h h', exLearn exC = .ok h ∧ h.leaves.length = 4 ∧ prune (discOps ℤ) 2 (1 / 2) h = .ok h' ∧
    h'.leaves.length ≤ h.leaves.length := by
  obtain ⟨h, h1, h2⟩ : ∃ h, exLearn exC = .ok h ∧ h.leaves.length = 4 := exists_ok (by decide +kernel)
  obtain ⟨h', h3, -, -, h4, -⟩ := C51_learned (exC.cfg 6) exKind exData 6 exA_kind exA_data h h1 (1 / 2)
  exact ⟨h, h', h1, h2, h3, h4⟩

/-- The numbers of leaves after pruning with the thresholds 0, 1 and 2.  The merged tree answers like the original. -/
example : ∃ h, exLearn exC = .ok h ∧ h.leaves.length = 4 ∧
    okAnd (prune (discOps ℤ) 2 0 h) (fun g => g.leaves.length == 1) = true ∧
    okAnd (prune (discOps ℤ) 2 1 h) (fun g => g.leaves.length == 2 &&
      decide (infer (discOps ℤ) 2 (fullOf (exC.cfg 6)) g [(1, .set [2])] []
        = infer (discOps ℤ) 2 (fullOf (exC.cfg 6)) h [(1, .set [2])] [])) = true ∧
    okAnd (prune (discOps ℤ) 2 2 h) (fun g => g.leaves.length == 4) = true :=
  exists_ok (by decide +kernel)

/-- C51 is violated on trees that come from conditioning: a decision node that has lost a child makes
`prune` raise `ValueError`. -/
theorem C51_violated_conditional : ∃ h, exLearn exC = .ok h ∧
    okAnd (conditional (discOps ℤ) 2 (fullOf (exC.cfg 6)) h [] [(1, .set [0, 2])]) (fun x =>
      decide (infer (discOps ℤ) 2 (fullOf (exC.cfg 6)) x.1 [(1, .set [2])] [] = .ok (some (1 / 2))) &&
      decide ((prune (discOps ℤ) 2 0 x.1).map (fun _ => ()) = .error .valueError)) = true :=
  exists_ok (by decide +kernel)

end Verif.Trees
