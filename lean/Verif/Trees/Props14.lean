import Verif.Trees.MixLaws
import Verif.Trees.Props2
import Verif.Trees.Props6

/-!
# Posteriors and conditioning of trees with numeric variables: C46, C47
-/

namespace Verif.Trees

open Learn (Cfg Data learn DataOK fullOf exists_ok)
open Iv (FP CS Br)

variable {L : Type} [DecidableEq L]

theorem sum_mass {D : Type} {P : D → Region → ℚ} {h : Heap D} {e : Query} {v n : ℕ} (S : Region)
    (hlen : ∀ l ∈ h.leaves, l.2.dists.length = n) (hv : v < n) (hn : e.lookup v = none) :
    (h.leaves.map (fun l => l.2.prior * (leafProb P l.2 e * condProb P l.2 e v S))).sum = mass P h ((v, S) :: e) := by
  unfold mass
  congr 1
  apply List.map_congr_left
  intro l hl
  unfold condProb leafProb
  rw [List.map_cons, List.prod_cons]
  have hlen := hlen l hl
  obtain ⟨d, hd⟩ : ∃ d, l.2.dists[v]? = some d := ⟨_, List.getElem?_eq_getElem (by omega)⟩
  rw [hd, hn]
  simp only
  ring

/-- Merging numeric distributions of leaves. -/
theorem merge_left {val : ℤ → ℚ} {idx rnd : ℚ → ℤ} {k : Unit} {col : List (MD L)} {ws : List ℚ} {b : MD L} (hne : col ≠ [])
    (hok : ∀ d ∈ col, mixOkM (L := L) val (.inl k) d) (h : (mixOps L val idx rnd).merge col ws = .ok b) :
    ∃ (p : Fun.PF) (ds : List Fun.PF), b = .inl p ∧ col = ds.map .inl ∧
      Num.merge val rnd ds (some (ws.map some)) = .ok p := by
  have hds : ∃ ds : List Fun.PF, col = ds.map .inl := by
    clear h hne
    induction col with
    | nil => exact ⟨[], rfl⟩
    | cons d col ih =>
      obtain ⟨ds, rfl⟩ := ih (fun d hd => hok d (List.mem_cons_of_mem _ hd))
      have := hok d List.mem_cons_self
      cases d with
      | inl d => exact ⟨d :: ds, rfl⟩
      | inr d => exact this.elim
  obtain ⟨ds, rfl⟩ := hds
  have hf : (ds.map (Sum.inl : Fun.PF → MD L)).filterMap Sum.getLeft? = ds := by
    rw [List.filterMap_map]; exact List.filterMap_some
  simp only [sumOps] at h
  rw [if_pos (by simp), hf] at h
  cases hm : (numOps val idx rnd).merge ds ws with
  | error x => rw [hm] at h; cases h
  | ok p =>
    rw [hm] at h
    injection h with h
    exact ⟨p, ds, h.symm, rfl, hm⟩

/-- For all trees learned over numeric, symbolic and integer variables, with evidence on any of them: `posterior`
fails exactly if the evidence has probability zero.  The posterior of a symbolic or integer variable without evidence
gives every set of values its conditional probability.  The posterior of a numeric variable without evidence is the
merger (see C38) of the distributions of the leaves that the evidence can reach, each weighted with the probability of
the leaf given the evidence.  All of them can be stored and read back.  The trees are those of
`learn(close_convex_gaps=False)`.  Missing: evidence on an asked variable, and evidence at a single number. -/
theorem C46_learned_mixed_partial {val : ℤ → ℚ} (hval : StrictMono val) {idx : ℚ → ℤ} (hidx : ∀ n, idx (val n) = n)
    (rnd : ℚ → ℤ) (eps : ℚ) (c : Cfg) (kind : ℕ → MK L) (data : Data) (total : ℕ) (hk : Kinds c kind)
    (hdata : DataOK c data total) (hfl : Floats val c data total) (h : Heap (MD L))
    (hl : learn c data total (fitMix val idx eps kind data) = .ok h) (vs : List ℕ) (e : Query)
    (hvs : ∀ v ∈ vs, v < c.vars.length ∧ e.lookup v = none)
    (he : QueryOK (mixFits val) kind c.vars.length e) (hpt : ∀ i ∈ e, i.2.point = none) :
    (mass (mixP val idx) h e = 0 →
      posterior (mixOps L val idx rnd) c.vars.length (fullOf c) h vs e = .error .unsatisfiable) ∧
    (mass (mixP val idx) h e ≠ 0 →
      ∃ ds, posterior (mixOps L val idx rnd) c.vars.length (fullOf c) h vs e = .ok ds ∧
        List.Forall₂ (fun v b => b.1 = v ∧ (mixOps L val idx rnd).reload b.2 = .ok b.2 ∧
          (∀ k, kind v = .inr k → ∃ d, b.2 = .inr d ∧ discOk k d ∧ ∀ S, discFits k S →
            discP d S = mass (mixP val idx) h ((v, S) :: e) / mass (mixP val idx) h e) ∧
          (kind v = .inl () → ∃ (p : Fun.PF) (ls : List (ℕ × Leaf (MD L))) (col : List Fun.PF), b.2 = .inl p ∧
            ls.Perm (h.leaves.filter (fun l => decide (leafProb (mixP val idx) l.2 e ≠ 0))) ∧
            List.Forall₂ (fun l d => l.2.dists[v]? = some (.inl d)) ls col ∧
            Num.merge val rnd col (some (ls.map (fun l =>
              some (leafProb (mixP val idx) l.2 e * l.2.prior / mass (mixP val idx) h e)))) = .ok p)) vs ds) := by
  have hT := learned_mix_on hval hidx hk hdata hfl hl
  obtain ⟨h1, h2⟩ := posterior_on (mix_laws_on hval hidx rnd) hT he (fun v hv => (hvs v hv).1)
    (fun v hv r hr => by rw [(hvs v hv).2] at hr; cases hr)
    (fun l hle i hi d hd => learned_lik hval hidx rnd hk hdata hfl hl (he.2 i hi).2.1 (hpt i hi) hle hd)
    (fun l _ _ v hv r hr => by rw [(hvs v hv).2] at hr; cases hr)
  refine ⟨h1, fun hm => ?_⟩
  obtain ⟨ds, h3, h4⟩ := h2 hm
  refine ⟨ds, h3, (forall₂_mem h4).imp ?_⟩
  rintro v b ⟨⟨h5, h6, h7, ls, col, h8, h9, h10⟩, hv⟩
  refine ⟨h5, h6, fun k hkd => ?_, fun hkd => ?_⟩
  · rw [hkd] at h7
    obtain ⟨h11, h12⟩ := h7 trivial
    cases hb : b.2 with
    | inl d => rw [hb] at h11; exact h11.elim
    | inr d =>
      rw [hb] at h11 h12
      refine ⟨d, rfl, h11, fun S hS => ?_⟩
      rw [eq_div_iff hm, ← sum_mass S (fun l hle => (hT.dists l hle).1) (hvs v hv).1 (hvs v hv).2]
      exact h12 S hS
  · have hne : col ≠ [] := by
      rintro rfl
      have hls : ls = [] := by cases h9; rfl
      subst hls
      apply hm
      unfold mass
      apply List.sum_eq_zero
      intro x hx
      obtain ⟨l, hle, rfl⟩ := List.mem_map.1 hx
      by_contra hc
      have : l ∈ h.leaves.filter (fun l => decide (leafProb (mixP val idx) l.2 e ≠ 0)) := by
        rw [List.mem_filter]
        exact ⟨hle, by simpa using fun h0 => hc (by rw [h0, mul_zero])⟩
      rw [← h8.mem_iff] at this
      cases this
    obtain ⟨p, ds', h11, rfl, h12⟩ := merge_left hne (k := ()) (by
      intro d hd
      obtain ⟨l, -, h13⟩ := forall₂_mem_right h9 hd
      rw [← hkd]
      exact h13.1) h10
    refine ⟨p, ls, ds', h11, h8, ?_, ?_⟩
    · rw [List.forall₂_map_right_iff] at h9
      exact h9.imp (fun l d h => h.2.1 (hvs v hv).2)
    · rw [List.map_map] at h12
      exact h12

/-- `conditional_jpt` of learned trees, if the distributions of all leaves that the evidence can reach can be
conditioned. -/
theorem conditional_mixed {val : ℤ → ℚ} (hval : StrictMono val) {idx : ℚ → ℤ} (hidx : ∀ n, idx (val n) = n)
    (rnd : ℚ → ℤ) (eps : ℚ) (c : Cfg) (kind : ℕ → MK L) (data : Data) (total : ℕ) (hk : Kinds c kind)
    (hdata : DataOK c data total) (hfl : Floats val c data total) (h : Heap (MD L))
    (hl : learn c data total (fitMix val idx eps kind data) = .ok h) (priors : List (ℕ × MD L))
    (hp : ∀ b ∈ priors, (mixOps L val idx rnd).reload b.2 = .ok b.2) (e : Query)
    (he : QueryOK (mixFits val) kind c.vars.length e) (hne : e ≠ [])
    (hC : ∀ l ∈ h.leaves, 0 < leafProb (mixP val idx) l.2 e → ∀ i ∈ e, ∀ d, l.2.dists[i.1]? = some d →
      ∃ d', (mixOps L val idx rnd).crop d i.2 = .ok d' ∧ mixOkM val (kind i.1) d' ∧ ∀ s, mixFits val (kind i.1) s →
        mixP val idx d' s = mixP val idx d (s.inter i.2) / mixP val idx d i.2)
    (hpt : ∀ i ∈ e, i.2.point = none) :
    (mass (mixP val idx) h e = 0 →
      conditional (mixOps L val idx rnd) c.vars.length (fullOf c) h priors e = .error .unsatisfiable) ∧
    (mass (mixP val idx) h e ≠ 0 → ∃ h' ps,
      conditional (mixOps L val idx rnd) c.vars.length (fullOf c) h priors e = .ok (h', ps) ∧
      List.Forall₂ (Conditioned (mixFits val) (mixP val idx) kind c.vars.length e (mass (mixP val idx) h e))
        (h.leaves.filter (fun l => decide (0 < leafProb (mixP val idx) l.2 e))) h'.leaves ∧
      List.Forall₂ (fun l l' => ∀ v, e.lookup v = none → l'.2.dists[v]? = l.2.dists[v]?)
        (h.leaves.filter (fun l => decide (0 < leafProb (mixP val idx) l.2 e))) h'.leaves ∧
      (h'.leaves.map (fun l => l.2.prior)).sum = 1 ∧
      (∀ q, QueryOK (mixFits val) kind c.vars.length q → ∀ fail,
        infer (mixOps L val idx rnd) c.vars.length (fullOf c) h' q [] fail
          = .ok (some (mass (mixP val idx) h (meet q e) / mass (mixP val idx) h e))) ∧
      List.Forall₂ (fun v b => b.1 = v ∧ (mixOps L val idx rnd).reload b.2 = .ok b.2 ∧
        (∀ k, kind v = .inr k → ∃ d, b.2 = .inr d ∧ discOk k d ∧ ∀ S, discFits k S → S.OK →
          discP d S = mass (mixP val idx) h (meet [(v, S)] e) / mass (mixP val idx) h e) ∧
        (kind v = .inl () → ∃ (p : Fun.PF) (ls : List (ℕ × Leaf (MD L))) (col : List Fun.PF), b.2 = .inl p ∧
          ls.Perm h'.leaves ∧ List.Forall₂ (fun l d => l.2.dists[v]? = some (.inl d)) ls col ∧
          Num.merge val rnd col (some (ls.map (fun l => some l.2.prior))) = .ok p)) (List.range c.vars.length) ps) := by
  have hT := learned_mix_on hval hidx hk hdata hfl hl
  obtain ⟨hb, hs⟩ := learned_binary hdata hl
  rw [conditional_copied (mix_laws_on hval hidx rnd).reload hT hs priors hp]
  obtain ⟨h1, h2⟩ := conditionalOf_each (mix_laws_on hval hidx rnd) hT hb priors he hC hne hpt
  refine ⟨h1, fun hm => ?_⟩
  obtain ⟨h', ps, h3, h4, h5, h6, h7⟩ := h2 hm
  have hL := (mix_laws_on (L := L) hval hidx rnd).toPLaws
  have hmass : ∀ q, QueryOK (mixFits val) kind c.vars.length q →
      mass (mixP val idx) h' q = mass (mixP val idx) h (meet q e) / mass (mixP val idx) h e :=
    fun q hq => mass_cond hL hT hq he hm h5
  have hone : (h'.leaves.map (fun l => l.2.prior)).sum = 1 := by
    have := hmass [] ⟨by simp, by simp⟩
    have h7 : meet [] e = e := by simp [meet]
    rw [h7, div_self hm] at this
    rw [← this]
    unfold mass leafProb
    simp
  refine ⟨h', ps, h3, h5, h6, hone, ?_, ?_⟩
  · intro q hq fail
    rw [C45_infer_prior hL h4 hq fail hone, hmass q hq]
  · refine (forall₂_mem h7).imp ?_
    rintro v b ⟨⟨h8, h9, h10, ls, col, h11, h12, h13⟩, hv⟩
    rw [List.mem_range] at hv
    refine ⟨h8, h9, fun k hkd => ?_, fun hkd => ?_⟩
    · rw [hkd] at h10
      obtain ⟨h14, h15⟩ := h10 trivial
      cases hb : b.2 with
      | inl d => rw [hb] at h14; exact h14.elim
      | inr d =>
        rw [hb] at h14 h15
        refine ⟨d, rfl, h14, fun S hS hSO => ?_⟩
        refine (h15 S hS).trans ?_
        rw [← hmass [(v, S)] ⟨by simp, by
          intro i hi
          rw [List.mem_singleton] at hi
          subst hi
          exact ⟨hv, by rw [hkd]; exact hS, hSO⟩⟩]
        unfold mass leafProb condProb
        congr 1
        apply List.map_congr_left
        intro l _
        simp only [List.map_cons, List.map_nil, List.prod_cons, List.prod_nil, mul_one, List.lookup_nil]
        cases l.2.dists[v]? <;> rfl
    · have hne' : col ≠ [] := by
        rintro rfl
        have hls : ls = [] := by cases h12; rfl
        subst hls
        rw [List.nil_perm.1 h11] at hone
        norm_num at hone
      obtain ⟨p, ds', h14, rfl, h15⟩ := merge_left hne' (k := ()) (by
        intro d hd
        obtain ⟨l, hle, h16⟩ := forall₂_mem_right h12 hd
        rw [← hkd]
        exact (h4.dists l (h11.mem_iff.1 hle)).2 v d h16) h13
      refine ⟨p, ls, ds', h14, h11, ?_, ?_⟩
      · rw [List.forall₂_map_right_iff] at h12
        exact h12
      · rw [List.map_map] at h15
        exact h15

/-- For all trees learned over numeric, symbolic and integer variables, with evidence on symbolic and integer
variables: `conditional_jpt` fails exactly if the evidence has probability zero.  Otherwise the leaves are those the
evidence can reach, each with prior (prior times likelihood) over the mass of the evidence, the distributions
conditioned on the evidence, and those of the numeric variables unchanged; the priors of the leaves sum to one; all
answers of the new tree, also those about numeric variables, are the probabilities given the evidence.  The priors of
symbolic and integer variables are the conditional probabilities, those of numeric variables the mergers (see C38) of
the new leaves' distributions.  For evidence on numeric variables see `C47_numeric_evidence_partial`. -/
theorem C47_learned_mixed_partial {val : ℤ → ℚ} (hval : StrictMono val) {idx : ℚ → ℤ} (hidx : ∀ n, idx (val n) = n)
    (rnd : ℚ → ℤ) (eps : ℚ) (c : Cfg) (kind : ℕ → MK L) (data : Data) (total : ℕ) (hk : Kinds c kind)
    (hdata : DataOK c data total) (hfl : Floats val c data total) (h : Heap (MD L))
    (hl : learn c data total (fitMix val idx eps kind data) = .ok h) (priors : List (ℕ × MD L))
    (hp : ∀ b ∈ priors, (mixOps L val idx rnd).reload b.2 = .ok b.2) (e : Query)
    (he : QueryOK (mixFits val) kind c.vars.length e) (hne : e ≠ []) (hdisc : ∀ i ∈ e, ∃ k, kind i.1 = .inr k) :
    (mass (mixP val idx) h e = 0 →
      conditional (mixOps L val idx rnd) c.vars.length (fullOf c) h priors e = .error .unsatisfiable) ∧
    (mass (mixP val idx) h e ≠ 0 → ∃ h' ps,
      conditional (mixOps L val idx rnd) c.vars.length (fullOf c) h priors e = .ok (h', ps) ∧
      List.Forall₂ (Conditioned (mixFits val) (mixP val idx) kind c.vars.length e (mass (mixP val idx) h e))
        (h.leaves.filter (fun l => decide (0 < leafProb (mixP val idx) l.2 e))) h'.leaves ∧
      List.Forall₂ (fun l l' => ∀ v, kind v = .inl () → l'.2.dists[v]? = l.2.dists[v]?)
        (h.leaves.filter (fun l => decide (0 < leafProb (mixP val idx) l.2 e))) h'.leaves ∧
      (h'.leaves.map (fun l => l.2.prior)).sum = 1 ∧
      (∀ q, QueryOK (mixFits val) kind c.vars.length q → ∀ fail,
        infer (mixOps L val idx rnd) c.vars.length (fullOf c) h' q [] fail
          = .ok (some (mass (mixP val idx) h (meet q e) / mass (mixP val idx) h e))) ∧
      List.Forall₂ (fun v b => b.1 = v ∧ (mixOps L val idx rnd).reload b.2 = .ok b.2 ∧
        (∀ k, kind v = .inr k → ∃ d, b.2 = .inr d ∧ discOk k d ∧ ∀ S, discFits k S → S.OK →
          discP d S = mass (mixP val idx) h (meet [(v, S)] e) / mass (mixP val idx) h e) ∧
        (kind v = .inl () → ∃ (p : Fun.PF) (ls : List (ℕ × Leaf (MD L))) (col : List Fun.PF), b.2 = .inl p ∧
          ls.Perm h'.leaves ∧ List.Forall₂ (fun l d => l.2.dists[v]? = some (.inl d)) ls col ∧
          Num.merge val rnd col (some (ls.map (fun l => some l.2.prior))) = .ok p)) (List.range c.vars.length) ps) := by
  have hT := learned_mix_on hval hidx hk hdata hfl hl
  obtain ⟨h1, h2⟩ := conditional_mixed hval hidx rnd eps c kind data total hk hdata hfl h hl priors hp e he hne
    (fun l hle hpos i hi d hd => (mix_laws_on hval hidx rnd).crop _ _ _ (by
      obtain ⟨k, hkd⟩ := hdisc i hi
      rw [hkd]
      trivial) ((hT.dists l hle).2 i.1 d hd) (he.2 i hi).2.1 (leafProb_factor (ne_of_gt hpos) hi hd))
    (by
      intro i hi
      have h1 := (he.2 i hi).2.1
      obtain ⟨k, hkd⟩ := hdisc i hi
      rw [hkd] at h1
      obtain ⟨l, hr, -⟩ := h1
      rw [hr]
      rfl)
  refine ⟨h1, fun hm => ?_⟩
  obtain ⟨h', ps, h3, h5, h6, h7⟩ := h2 hm
  refine ⟨h', ps, h3, h5, h6.imp fun l l' h8 v hv => h8 v ?_, h7⟩
  cases hlk : e.lookup v with
  | none => rfl
  | some r =>
    obtain ⟨k, hkd⟩ := hdisc _ (Dict.lookup_mem hlk)
    rw [hv] at hkd
    cases hkd

/-! ## Example -/

/-- The posterior of the symbolic variable given that the number is below 4, and the merged cdf of the numeric variable
given the symbol, at 3 and at 14. -/
example : ∃ h, learn (exM.cfg 6) exMData 6 (fitMix Fun.ival Rat.floor (1 / 100) exMKind exMData) = .ok h ∧
    mass (mixP Fun.ival Rat.floor) h [(0, .num ⟨.ninf, .fin 4, .exc, .exc⟩)] ≠ 0 ∧
    ((posterior (mixOps ℤ Fun.ival Rat.floor Rat.floor) 2 (fullOf (exM.cfg 6)) h [1]
      [(0, .num ⟨.ninf, .fin 4, .exc, .exc⟩)]).toOption.map (fun ds => ds.map (fun b => mixP Fun.ival Rat.floor b.2 (.set [1]))))
        = some [1 / 3] ∧
    ((posterior (mixOps ℤ Fun.ival Rat.floor Rat.floor) 2 (fullOf (exM.cfg 6)) h [0]
      [(1, .set [1])]).toOption.map (fun ds => ds.map (fun b =>
        (mixP Fun.ival Rat.floor b.2 (.num ⟨.ninf, .fin 3, .exc, .exc⟩),
         mixP Fun.ival Rat.floor b.2 (.num ⟨.ninf, .fin 15, .exc, .exc⟩))))) = some [(3 / 16, 1)] ∧
    ((conditional (mixOps ℤ Fun.ival Rat.floor Rat.floor) 2 (fullOf (exM.cfg 6)) h [] [(1, .set [1])]).toOption.map
      (fun r => r.1.leaves.map (fun l => l.2.prior))) = some [1 / 4, 3 / 4] := exists_ok (by decide +kernel)

end Verif.Trees
