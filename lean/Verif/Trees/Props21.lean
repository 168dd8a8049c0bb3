import Verif.Trees.PdfMixLemmas

/-!
# C89: `pdf` of partial worlds with numbers
-/

namespace Verif.Trees

open Iv (FP NS)
open Learn (Cfg Data learn DataOK fullOf exists_ok)
open Fun (PF)

variable {L : Type} [DecidableEq L] {val : ℤ → ℚ} {idx : ℚ → ℤ} {eps : ℚ} {c : Cfg} {kind : ℕ → MK L} {data : Data}
  {total : ℕ} {h : Heap (MD L)}

/-- The values of the world meet the restrictions of the leaf on the variables that are asked about. -/
def Reached (kind : ℕ → MK L) (vars : List ℕ) (w : ℕ → Cell L) (l : Leaf (MD L)) : Prop :=
  ∀ e ∈ l.path, e.1 ∈ vars → ∀ q, Stored (kind e.1) (w e.1) q → e.2.Mem (.fin q)

/-- C89 for trees learned from labels and numbers.  `pdf` of a number or label for each of some variables is the sum over
the leaves of the prior times the product of the densities of the numbers and the frequencies of the labels, as long as no
leaf holds only the number that is asked for.  There the density is infinite, and so is the result if nothing else in the
leaf is 0.  If something is, the result is NaN.

Partial: the labels of the symbolic and integer variables asked about must be 0, 1, 2, … (`C89_violated_label`), the claim
has no NaN (`C89_violated_nan`), and variables are not scaled.  The value 1 stands for the infinite densities in
`LeafDensity` and plays no role. -/
theorem C89_mixed_partial (hval : StrictMono val) (hidx : ∀ n, idx (val n) = n) (hk : Kinds c kind)
    (hdata : DataOK c data total) (hfl : Floats val c data total)
    (hl : learn c data total (fitMix val idx eps kind data) = .ok h) {asLabel : ℤ → L} {vars : List ℕ} {w : ℕ → Cell L}
    (hv : ∀ v ∈ vars, v < c.vars.length ∧ CellOK val (kind v) (w v))
    (hlab : ∀ v ∈ vars, ∀ k, kind v = .inr k → ∀ (j : ℕ) a, k.2.labels[j]? = some a → a = asLabel j) :
    ∃ dens : Leaf (MD L) → ℕ → Cell L → ℚ,
      (∀ l ∈ h.leaves, LeafDensity val idx eps kind c.vars.length data (fun _ => 1) l.2 (dens l.2)) ∧
      ((∀ l ∈ h.leaves, ∀ v ∈ vars, ¬ Hit kind data w l.2 v) →
        pdfMix idx asLabel c.vars.length h (cellQuery kind vars w) = .ok (some (.fin
          ((h.leaves.map (fun l => l.2.prior * (vars.map (fun v => dens l.2 v (w v))).prod)).sum)))) ∧
      ((∃ l ∈ h.leaves, (∃ v ∈ vars, Hit kind data w l.2 v) ∧ ∀ v ∈ vars, dens l.2 v (w v) ≠ 0) →
        (∀ l ∈ h.leaves, Reached kind vars w l.2 → (∃ v ∈ vars, Hit kind data w l.2 v) →
          ∀ v ∈ vars, dens l.2 v (w v) ≠ 0) →
        pdfMix idx asLabel c.vars.length h (cellQuery kind vars w) = .ok (some .pinf)) ∧
      ((∃ l ∈ h.leaves, Reached kind vars w l.2 ∧ (∃ v ∈ vars, Hit kind data w l.2 v) ∧
          ∃ v ∈ vars, dens l.2 v (w v) = 0) →
        pdfMix idx asLabel c.vars.length h (cellQuery kind vars w) = .ok none) := by
  classical
  have hT := learned_mix hval hidx hk hdata hfl hl
  have hD := leaf_density hval hidx hk hdata hfl hl (fun _ => 1) (fun _ _ _ => one_pos)
  obtain ⟨ix, hI⟩ := Learn.learn_inv hdata hl
  have hrow : ∀ e ∈ h.leaves, ∀ r ∈ e.2.rows, r < total := by
    intro e he r hr
    have := hI.rows.mem_iff (a := r)
    simp only [List.flatMap_nil, List.append_nil, List.mem_flatMap, List.mem_range] at this
    exact this.1 ⟨e, he, hr⟩
  have hnd : ∀ v, v < c.vars.length → ∀ k', kind v = .inr k' → k'.2.labels.Nodup := by
    intro v hv k' hk'
    obtain ⟨h1, h2⟩ := hk.discrete hv hk'
    rw [← h2]; exact h1.1
  set g : Leaf (MD L) → ℕ → Cell L → ℚ := fun l => leafCell idx (fun _ => 1) l with hgdef
  -- the factors
  have hfac : ∀ l ∈ h.leaves, ∀ v ∈ vars, pdfFactorMix idx asLabel l.2 (v, cellRegion (kind v) (w v)) =
      .ok (if Hit kind data w l.2 v then .pinf else .fin (g l.2 v (w v))) := by
    intro l hle v hvv
    obtain ⟨hlt, hcell⟩ := hv v hvv
    cases hkv : kind v with
    | inl u =>
      rw [hkv] at hcell
      cases hx : w v with
      | inr x => rw [hx] at hcell; exact hcell.elim
      | inl y =>
        rw [hx] at hcell
        obtain ⟨m, rfl⟩ := hcell
        obtain ⟨hne, hfit⟩ := learned_fitted hval hidx hk hdata hfl hl l hle
        obtain ⟨d, h1, h2⟩ := hfit v hlt hkv
        obtain ⟨p, h3, h4⟩ := num_factor (L := L) hval hidx (eps := eps)
          (s := l.2.rows.map (fun r => idx (data r v))) (by simpa using hne)
        rw [h2] at h3
        obtain rfl := Except.ok.inj h3
        have hnum := hk.numeric hlt hkv
        have hcells : ∀ r ∈ l.2.rows, data r v = val (idx (data r v)) := by
          intro r hr
          obtain ⟨n, hn⟩ := hfl v hnum r r (hrow l hle r hr) (hrow l hle r hr)
          have h1 : data r v = val n := by rw [← hn]; ring
          rw [h1, hidx]
        have hhit : Hit kind data w l.2 v ↔ ∀ x ∈ l.2.rows.map (fun r => idx (data r v)), x = m := by
          unfold Hit
          rw [hx]
          constructor
          · rintro ⟨-, h5⟩ x hx'
            obtain ⟨r, hr, rfl⟩ := List.mem_map.1 hx'
            have h6 := Sum.inl.inj (h5 r hr)
            show idx (data r v) = m
            rw [← h6, hidx]
          · intro h5
            refine ⟨hkv, fun r hr => ?_⟩
            have h6 := h5 (idx (data r v)) (List.mem_map.2 ⟨r, hr, rfl⟩)
            rw [hcells r hr, h6]
        simp only [pdfFactorMix, h1, cellRegion, toFP, hidx, h4, hgdef, leafCell]
        by_cases hc : Hit kind data w l.2 v
        · rw [if_pos hc, if_pos (hhit.1 hc)]
        · rw [if_neg hc, if_neg (fun hh => hc (hhit.2 hh))]
    | inr k =>
      rw [hkv] at hcell
      cases hx : w v with
      | inl y => rw [hx] at hcell; exact hcell.elim
      | inr x =>
        rw [hx] at hcell
        obtain ⟨d, hd⟩ : ∃ d, l.2.dists[v]? = some d :=
          ⟨_, List.getElem?_eq_getElem (by rw [(hT.dists l hle).1]; exact hlt)⟩
        have hok := (hT.dists l hle).2 v d hd
        rw [hkv] at hok
        cases d with
        | inl d => exact hok.elim
        | inr d =>
          have hno : ¬ Hit kind data w l.2 v := by
            rintro ⟨h1, -⟩
            rw [hkv] at h1; cases h1
          have hxl : asLabel ((k.2.labels.idxOf x : ℕ) : ℤ) = x := by
            exact (hlab v hvv k hkv _ _ (List.getElem?_idxOf hcell)).symm
          simp only [pdfFactorMix, hd, cellRegion, if_neg hno, hgdef, leafCell, cellDens]
          rw [pdfAt_eq hok, hxl, if_pos (show x ∈ k.2.labels from hcell)]
          rfl
  -- the terms of the leaves
  have hleaf : ∀ l ∈ h.leaves, pdfLeaf idx asLabel (cellQuery kind vars w) l.2 =
      .ok ((xprod (vars.map (fun v => if Hit kind data w l.2 v then XQ.pinf else .fin (g l.2 v (w v))))).bind
        (xmul (.fin l.2.prior))) := by
    intro l hle
    have : (cellQuery kind vars w).mapM (pdfFactorMix idx asLabel l.2) =
        .ok (vars.map (fun v => if Hit kind data w l.2 v then XQ.pinf else .fin (g l.2 v (w v)))) := by
      unfold cellQuery
      rw [mapM_ok_iff, List.forall₂_map_left_iff, List.forall₂_map_right_iff, List.forall₂_same]
      intro v hvv
      exact hfac l hle v hvv
    simp only [pdfLeaf, this, bind, Except.bind, pure, Except.pure]
  have hprior : ∀ l ∈ h.leaves, 0 < l.2.prior := by
    intro l hle
    rw [(hI.leaf l hle).prior]
    have h1 : 0 < l.2.rows.length := List.length_pos_iff.2 (hI.leaf l hle).nonempty
    obtain ⟨r, hr⟩ := List.exists_mem_of_ne_nil _ (hI.leaf l hle).nonempty
    have h2 : 0 < total := (Nat.zero_le r).trans_lt (hrow l hle r hr)
    exact div_pos (by exact_mod_cast h1) (by exact_mod_cast h2)
  have hgnn : ∀ l ∈ h.leaves, ∀ v ∈ vars, 0 ≤ g l.2 v (w v) := by
    intro l hle v hvv
    obtain ⟨hlt, hcell⟩ := hv v hvv
    cases hkv : kind v with
    | inl u =>
      rw [hkv] at hcell
      cases hx : w v with
      | inr x => rw [hx] at hcell; exact hcell.elim
      | inl y =>
        rw [hx] at hcell
        obtain ⟨m, rfl⟩ := hcell
        obtain ⟨p, F, -, -, h3⟩ := (hD l hle).number v hlt hkv
        exact h3.nonneg zero_le_one m
    | inr k =>
      rw [hkv] at hcell
      cases hx : w v with
      | inl y => rw [hx] at hcell; exact hcell.elim
      | inr x =>
        rw [hx] at hcell
        show 0 ≤ leafCell idx (fun _ => 1) l.2 v (.inr x)
        rw [(hD l hle).label v hlt k hkv x hcell]
        positivity
  have hsgn : ∀ l ∈ h.leaves, ∀ x ∈ vars.map (fun v => if Hit kind data w l.2 v then XQ.pinf else .fin (g l.2 v (w v))),
      x = .pinf ∨ ∃ q, x = .fin q ∧ 0 ≤ q := by
    intro l hle x hx
    obtain ⟨v, hvv, rfl⟩ := List.mem_map.1 hx
    split
    · exact .inl rfl
    · exact .inr ⟨_, rfl, hgnn l hle v hvv⟩
  have tfin : ∀ l ∈ h.leaves, (∀ v ∈ vars, ¬ Hit kind data w l.2 v) →
      pdfLeaf idx asLabel (cellQuery kind vars w) l.2 =
        .ok (some (.fin (l.2.prior * (vars.map (fun v => g l.2 v (w v))).prod))) := by
    intro l hle hno
    have : vars.map (fun v => if Hit kind data w l.2 v then XQ.pinf else .fin (g l.2 v (w v))) =
        (vars.map (fun v => g l.2 v (w v))).map XQ.fin := by
      rw [List.map_map]
      apply List.map_congr_left
      intro v hvv
      rw [if_neg (hno v hvv)]; rfl
    rw [hleaf l hle, this, xprod, prod_fin, one_mul]
    rfl
  have tinf : ∀ l ∈ h.leaves, (∃ v ∈ vars, Hit kind data w l.2 v) → (∀ v ∈ vars, g l.2 v (w v) ≠ 0) →
      pdfLeaf idx asLabel (cellQuery kind vars w) l.2 = .ok (some .pinf) := by
    rintro l hle ⟨v, hvv, hh⟩ hpos
    rw [hleaf l hle, xprod, prod_inf one_pos]
    · simp only [Option.bind_some, xmul_pos_pinf (hprior l hle)]
    · intro x hx
      obtain ⟨v, hvv, rfl⟩ := List.mem_map.1 hx
      split
      · exact .inl rfl
      · exact .inr ⟨_, rfl, lt_of_le_of_ne (hgnn l hle v hvv) (Ne.symm (hpos v hvv))⟩
    · exact List.mem_map.2 ⟨v, hvv, if_pos hh⟩
  have hhitg : ∀ l ∈ h.leaves, ∀ v ∈ vars, Hit kind data w l.2 v → g l.2 v (w v) ≠ 0 := by
    rintro l hle v hvv ⟨hkv, hall⟩
    obtain ⟨hlt, hcell⟩ := hv v hvv
    obtain ⟨p, F, -, -, lo, hi, h1, h2, h3, h4, -⟩ := (hD l hle).number v hlt hkv
    obtain ⟨r1, hr1, rfl⟩ := List.mem_map.1 h1
    obtain ⟨r2, hr2, rfl⟩ := List.mem_map.1 h2
    rw [hkv] at hcell
    have e1 := hall r1 hr1
    have e2 := hall r2 hr2
    rw [e1] at e2 hcell
    obtain ⟨m, hm⟩ := hcell
    have e3 : data r2 v = data r1 v := (Sum.inl.inj e2).symm
    have h5 : leafCell idx (fun _ => 1) l.2 v (.inl (val m)) = _ := h4 (by simp only [e3]) m
    rw [if_pos (by rw [hm, hidx])] at h5
    rw [e1, hm]
    show leafCell idx (fun _ => 1) l.2 v (.inl (val m)) ≠ 0
    rw [h5]
    exact one_ne_zero
  have tnan : ∀ l ∈ h.leaves, (∃ v ∈ vars, Hit kind data w l.2 v) → (∃ v ∈ vars, g l.2 v (w v) = 0) →
      pdfLeaf idx asLabel (cellQuery kind vars w) l.2 = .ok none := by
    rintro l hle ⟨v, hvv, hh⟩ ⟨u, huv, hz⟩
    rw [hleaf l hle, xprod, prod_nan zero_le_one (hsgn l hle)]
    · rfl
    · exact List.mem_map.2 ⟨v, hvv, if_pos hh⟩
    · right
      refine List.mem_map.2 ⟨u, huv, ?_⟩
      rw [if_neg (fun hc => hhitg l hle u huv hc hz), hz]
  -- the leaves that are reached
  have hlt : ∀ i ∈ cellQuery kind vars w, i.1 < c.vars.length := by
    intro i hi
    obtain ⟨v, hv', rfl⟩ := List.mem_map.1 hi
    exact (hv v hv').1
  obtain ⟨ls, hls, hperm⟩ := apply_perm (q := cellQuery kind vars w) hT.shape hT.noNone hT.fitted hlt
  have hmem : ∀ l ∈ ls, l ∈ h.leaves := fun l hl => List.mem_of_mem_filter (hperm.mem_iff.1 hl)
  have hreach : ∀ l ∈ h.leaves, (l.2.path.all (fun e => passes (cellQuery kind vars w) e.1 e.2) = true ↔
      Reached kind vars w l.2) := by
    intro l hle
    rw [List.all_eq_true]
    unfold Reached
    refine forall₂_congr (fun e he => ?_)
    rw [passes_cell ((hI.leaf l hle).regions e he).1 (fun h => (hv _ h).2)]
    refine forall_congr' (fun hev => ?_)
    constructor
    · intro h1 q hq
      rw [(stored_iff (hnd _ (hv _ hev).1) (hv _ hev).2).1 hq]
      exact h1
    · intro h1
      exact h1 _ ((stored_iff (hnd _ (hv _ hev).1) (hv _ hev).2).2 rfl)
  have hzero : ∀ l ∈ h.leaves, ¬ Reached kind vars w l.2 → ∃ v ∈ vars, g l.2 v (w v) = 0 := by
    intro l hle hr
    rw [← hreach l hle, List.all_eq_true] at hr
    push Not at hr
    obtain ⟨e, he, hp⟩ := hr
    rw [Ne, passes_cell ((hI.leaf l hle).regions e he).1 (fun h => (hv _ h).2)] at hp
    push Not at hp
    obtain ⟨hev, hp⟩ := hp
    refine ⟨e.1, hev, ?_⟩
    by_contra hc
    exact hp (cell_sat hval hidx hk hdata hfl hl hle (hD l hle) he (hv _ hev).2 hc)
  have hpdf : ∀ ts, ls.mapM (fun l => pdfLeaf idx asLabel (cellQuery kind vars w) l.2) = .ok ts →
      pdfMix idx asLabel c.vars.length h (cellQuery kind vars w) =
        .ok (ts.foldlM (fun s t => t.bind (xplus s)) (XQ.fin 0)) := by
    intro ts hts
    have hbig : ¬ (cellQuery kind vars w).any (tooBigMix idx) = true := by
      rw [List.any_eq_true]
      rintro ⟨i, hi, hb⟩
      obtain ⟨v, hv', rfl⟩ := List.mem_map.1 hi
      have hcell := (hv v hv').2
      cases hkv : kind v with
      | inl u =>
        rw [hkv] at hcell
        cases hx : w v with
        | inr x => rw [hx] at hcell; exact hcell.elim
        | inl y =>
          simp only [hkv, hx, cellRegion, tooBigMix, toCS, Iv.CS.size, true_or, if_true, beq_iff_eq] at hb
          split at hb <;> cases hb
      | inr k =>
        rw [hkv] at hcell
        cases hx : w v with
        | inl y => rw [hx] at hcell; exact hcell.elim
        | inr x => simp [hkv, hx, cellRegion, tooBigMix] at hb
    have hcheck : checkQuery c.vars.length (cellQuery kind vars w) = .ok () := by
      unfold checkQuery
      rw [if_pos hlt]
    unfold pdfMix
    rw [if_neg hbig, hcheck, hls]
    simp only [bind, Except.bind, hts, pure, Except.pure]
  refine ⟨g, hD, fun hno => ?_, ?_, ?_⟩
  · rw [hpdf ((ls.map (fun l => l.2.prior * (vars.map (fun v => g l.2 v (w v))).prod)).map (fun q => some (XQ.fin q)))
      (by
        rw [List.map_map, mapM_ok_iff, List.forall₂_map_right_iff, List.forall₂_same]
        intro l hle
        exact tfin l (hmem l hle) (hno l (hmem l hle))), sum_fin, zero_add, (hperm.map _).sum_eq, sum_filter]
    intro l hle hr
    obtain ⟨v, hvv, hz⟩ := hzero l hle (fun hc => hr ((hreach l hle).2 hc))
    rw [List.prod_eq_zero (List.mem_map.2 ⟨v, hvv, hz⟩), mul_zero]
  · rintro ⟨l, hle, hh, hpos⟩ hall
    have hterm : ∀ l ∈ ls, ∃ t, pdfLeaf idx asLabel (cellQuery kind vars w) l.2 = .ok t ∧
        (t = some .pinf ∨ ∃ q, t = some (.fin q)) := by
      intro l hl'
      have hle := hmem l hl'
      by_cases hh : ∃ v ∈ vars, Hit kind data w l.2 v
      · exact ⟨_, tinf l hle hh (hall l hle ((hreach l hle).1 (List.mem_filter.1 (hperm.mem_iff.1 hl')).2) hh), .inl rfl⟩
      · push Not at hh
        exact ⟨_, tfin l hle hh, .inr ⟨_, rfl⟩⟩
    choose! t ht1 ht2 using hterm
    rw [hpdf (ls.map t) (by
      rw [mapM_ok_iff, List.forall₂_map_right_iff, List.forall₂_same]
      exact ht1), sum_inf]
    · intro x hx
      obtain ⟨l, hl', rfl⟩ := List.mem_map.1 hx
      exact ht2 l hl'
    · have hlm : l ∈ ls := hperm.mem_iff.2 (List.mem_filter.2 ⟨hle, (hreach l hle).2 (by
        by_contra hc
        obtain ⟨v, hvv, hz⟩ := hzero l hle hc
        exact hpos v hvv hz)⟩)
      refine List.mem_map.2 ⟨l, hlm, ?_⟩
      have := ht1 l hlm
      rw [tinf l hle hh hpos] at this
      exact (Except.ok.inj this).symm
  · rintro ⟨l, hle, hr, hh, hz⟩
    have hterm : ∀ l ∈ ls, ∃ t, pdfLeaf idx asLabel (cellQuery kind vars w) l.2 = .ok t :=
      fun l hl' => ⟨_, hleaf l (hmem l hl')⟩
    choose! t ht1 using hterm
    rw [hpdf (ls.map t) (by
      rw [mapM_ok_iff, List.forall₂_map_right_iff, List.forall₂_same]
      exact ht1), sum_nan]
    have hlm : l ∈ ls := hperm.mem_iff.2 (List.mem_filter.2 ⟨hle, (hreach l hle).2 hr⟩)
    refine List.mem_map.2 ⟨l, hlm, ?_⟩
    have := ht1 l hlm
    rw [tnan l hle hh hz] at this
    exact (Except.ok.inj this).symm

/-! ### Examples -/

/-- The kinds of the example of `Verif.Trees.Props6`, with the labels 0 and 1. -/
def exPKind : ℕ → MK ℤ
  | 0 => .inl ()
  | _ => .inr (false, ⟨"W", [0, 1]⟩)

abbrev exPLearn : Except Err (Heap (MD ℤ)) :=
  learn (exM.cfg 6) exMData 6 (fitMix Fun.ival Rat.floor (1 / 100) exPKind exMData)

/-- Where the theorem holds: the density 1/8 of the number 3 and the frequency 2/3 of the label 0 in the first of two
leaves. -/
example : ∃ h, exPLearn = .ok h ∧
    ∃ dens : Leaf (MD ℤ) → ℕ → Cell ℤ → ℚ,
      pdfMix Rat.floor id 2 h [(0, .num ⟨.fin 3, .fin 3, .inc, .inc⟩), (1, .set [0])] = .ok (some (.fin
        ((h.leaves.map (fun l => l.2.prior * (([0, 1] : List ℕ).map
          (fun v => dens l.2 v (if v = 0 then .inl 3 else .inr 0))).prod)).sum))) ∧
      pdfMix Rat.floor id 2 h [(0, .num ⟨.fin 3, .fin 3, .inc, .inc⟩), (1, .set [0])] = .ok (some (.fin (1 / 12))) := by
  obtain ⟨h, hl, h1, h2⟩ : ∃ h, exPLearn = .ok h ∧
      (∀ l ∈ h.leaves, ¬ ∀ r ∈ l.2.rows, 3 = exMData r 0) ∧
      pdfMix Rat.floor id 2 h [(0, .num ⟨.fin 3, .fin 3, .inc, .inc⟩), (1, .set [0])] = .ok (some (.fin (1 / 12))) :=
    exists_ok (by decide +kernel)
  have hk : Kinds (exM.cfg 6) exPKind := by
    intro v hv
    match v, hv with
    | 0, _ => exact .inl ⟨rfl, rfl⟩
    | 1, _ => exact .inr ⟨_, _, rfl, by decide, .inr ⟨rfl, rfl⟩⟩
    | v + 2, hv => exact absurd hv (by simp [exM, Learn.Args.cfg])
  obtain ⟨dens, -, h3, -⟩ := C89_mixed_partial Fun.ival_strictMono (fun n => Rat.floor_intCast n) hk exM_data exM_floats hl
    (asLabel := id) (vars := [0, 1]) (w := fun v => if v = 0 then .inl 3 else .inr 0)
    (by
      intro v hv
      simp only [List.mem_cons, List.not_mem_nil, or_false] at hv
      rcases hv with rfl | rfl
      · exact ⟨by decide, 3, rfl⟩
      · exact ⟨by decide, by simp [CellOK, exPKind]⟩)
    (by
      intro v hv k hk j a ha
      simp only [List.mem_cons, List.not_mem_nil, or_false] at hv
      rcases hv with rfl | rfl
      · cases hk
      · simp only [exPKind, Sum.inr.injEq] at hk
        subst hk
        match j, ha with
        | 0, ha => cases ha; rfl
        | 1, ha => cases ha; rfl)
  refine ⟨h, hl, dens, h3 ?_, h2⟩
  rintro l hle v hv ⟨hkv, hall⟩
  simp only [List.mem_cons, List.not_mem_nil, or_false] at hv
  rcases hv with rfl | rfl
  · exact h1 l hle (fun r hr => Sum.inl.inj (hall r hr))
  · cases hkv

/-- A leaf holds only the number 5 and the label 0. -/
def exPData : Data := fun r v =>
  (([[5, 0], [5, 0], [5, 0], [9, 0], [11, 1], [15, 1]] : List (List ℚ)).getD r []).getD v 0

abbrev exPLearn2 : Except Err (Heap (MD ℤ)) :=
  learn (exM.cfg 6) exPData 6 (fitMix Fun.ival Rat.floor (1 / 100) exPKind exPData)

/-- C89 is violated: the likelihood of the number 5 with the label 1 is NaN instead of 0, since in the leaf where all
numbers are 5 the infinite density is multiplied by the frequency 0 of the label. -/
theorem C89_violated_nan :
    (exPLearn2.bind (fun h => pdfMix Rat.floor id 2 h [(0, .num ⟨.fin 5, .fin 5, .inc, .inc⟩), (1, .set [1])])).toOption =
      some none ∧
    (exPLearn2.bind (fun h => pdfMix Rat.floor id 2 h [(0, .num ⟨.fin 5, .fin 5, .inc, .inc⟩), (1, .set [0])])).toOption =
      some (some .pinf) := by
  decide +kernel

/-- C89 is violated: of an interval that holds a single float the lower bound is taken, also if it is excluded.  The
interval `(15, 16]`, where the density of 16 is 0, has the density 1/16 of 15. -/
theorem C89_violated_excluded :
    (Iv.CS.Mem ⟨.fin 15, .fin 16, .exc, .inc⟩ (.fin 16) ∧ ¬ Iv.CS.Mem ⟨.fin 15, .fin 16, .exc, .inc⟩ (.fin 15)) ∧
    (exPLearn2.bind (fun h => pdfMix Rat.floor id 2 h [(0, .num ⟨.fin 15, .fin 16, .exc, .inc⟩)])).toOption =
      some (some (.fin (1 / 16))) ∧
    (exPLearn2.bind (fun h => pdfMix Rat.floor id 2 h [(0, .num ⟨.fin 16, .fin 16, .inc, .inc⟩)])).toOption =
      some (some (.fin 0)) := by
  refine ⟨⟨by decide, by decide⟩, ?_⟩
  decide +kernel

/-- Intervals of more than one float and variables that the tree does not have raise `ValueError`. -/
theorem C89_mixed_errors (idx : ℚ → ℤ) (asLabel : ℤ → L) (n : ℕ) (h : Heap (MD L)) (q : Query) :
    (∀ i ∈ q, ∀ I, i.2 = .num I → (toCS idx I).size = none → pdfMix idx asLabel n h q = .error .valueError) ∧
    (∀ i ∈ q, ∀ s, i.2 = .set s → 1 < s.length → pdfMix idx asLabel n h q = .error .valueError) ∧
    (∀ i ∈ q, n ≤ i.1 → pdfMix idx asLabel n h q = .error .valueError) := by
  have hany : (∃ i ∈ q, tooBigMix idx i = true) → pdfMix idx asLabel n h q = .error .valueError := by
    intro hh
    unfold pdfMix
    rw [if_pos (List.any_eq_true.2 hh)]
  refine ⟨fun i hi I hI hs => hany ⟨i, hi, ?_⟩, fun i hi s hs hlen => hany ⟨i, hi, ?_⟩, fun i hi hn => ?_⟩
  · simp [tooBigMix, hI, hs]
  · simp [tooBigMix, hs, hlen]
  · by_cases hh : ∃ i ∈ q, tooBigMix idx i = true
    · exact hany hh
    · unfold pdfMix
      rw [if_neg (fun hc => hh (List.any_eq_true.1 hc))]
      have : checkQuery n q = .error .valueError := by
        unfold checkQuery
        rw [if_neg (fun hc => absurd (hc i hi) (by omega))]
      rw [this]
      rfl

end Verif.Trees
