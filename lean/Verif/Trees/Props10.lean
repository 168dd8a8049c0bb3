import Verif.Trees.SamplingLemmas
import Verif.Trees.ExpectLemmas
import Verif.Numeric.SampleLemmas2
import Verif.Numeric.Props8

/-!
# C86: sampling from a tree
-/

namespace Verif.Trees

open Disc
open Learn (Cfg Data DataOK learn exists_ok fullOf)

variable {L : Type} [DecidableEq L] {val : ℤ → ℚ} {idx : ℚ → ℤ} {kind : ℕ → MK L} {full : ℕ → Region} {n : ℕ}
  {h : Heap (MD L)}

omit [DecidableEq L] in
/-- Sampling from a tree of symbolic and integer variables gives as many rows as wanted, and every row is a world. -/
theorem C86_rows (ht : TreeOK (mixOk val) (mixFits val) (mixP val idx) kind full n h)
    (hkind : ∀ v, v < n → ∃ k, kind v = .inr k ∧ k.2.labels.Nodup) (hone : h.priorSum = 1) (draws : List Draw)
    (hd : ∀ w ∈ draws, w.OK n) :
    ∃ rows, sampleTree val h draws = .ok rows ∧ rows.length = draws.length ∧
      ∀ row ∈ rows, row.length = n ∧ ∀ v x, row[v]? = some x → ∃ y ∈ labelsOf kind v, x = .inr y := by
  have h0 : ∀ p ∈ h.leaves.map (fun l => l.2.prior), 0 ≤ p := by
    intro p hp
    obtain ⟨l, hl, rfl⟩ := List.mem_map.1 hp
    exact ht.prior l hl
  have h1 : (h.leaves.map (fun l => l.2.prior)).sum = 1 := hone
  have hex : ∀ w ∈ draws, ∃ row, (match h.leaves[choose (h.leaves.map (fun l => l.2.prior)) w.1]? with
      | none => .error .indexError
      | some l => l.2.sampleRow val w.2 : Except Err (List (Cell L))) = .ok row ∧
      (row.length = n ∧ ∀ v x, row[v]? = some x → ∃ y ∈ labelsOf kind v, x = .inr y) := by
    intro w hw
    obtain ⟨-, hw1, hw2⟩ := hd w hw
    have hlt := choose_lt h0 h1 hw1
    rw [List.length_map] at hlt
    rw [List.getElem?_eq_getElem hlt]
    exact row_exists ht hkind (List.getElem_mem hlt) hw2
  obtain ⟨rows, h2, h3⟩ : ∃ rows, draws.mapM (fun w : Draw =>
      match h.leaves[choose (h.leaves.map (fun l => l.2.prior)) w.1]? with
      | none => (.error .indexError : Except Err (List (Cell L)))
      | some l => l.2.sampleRow val w.2) = .ok rows ∧ List.Forall₂ (fun _ row =>
        row.length = n ∧ ∀ v x, row[v]? = some x → ∃ y ∈ labelsOf kind v, x = .inr y) draws rows := by
    have hself : List.Forall₂ (fun a b : Draw => a = b ∧ a ∈ draws) draws draws := by
      rw [List.forall₂_iff_get]
      exact ⟨rfl, fun i h1 _ => ⟨rfl, List.getElem_mem h1⟩⟩
    exact forall₂_mapM _ hself (by
      rintro a b ⟨rfl, ha⟩
      exact hex a ha)
  refine ⟨rows, ?_, h3.length_eq.symm, fun row hr => ?_⟩
  · simp only [sampleTree, choiceCheck_ok h0 h1, bind, Except.bind]
    exact h2
  · obtain ⟨w, -, h4⟩ := forall₂_left' h3.flip hr
    exact h4

/-- The probability of a world is its likelihood: the random numbers that lead to a world are those in certain boxes,
which do not overlap and the volumes of which add up to the likelihood of the world. -/
theorem C86_distribution (ht : TreeOK (mixOk val) (mixFits val) (mixP val idx) kind full n h)
    (hkind : ∀ v, v < n → ∃ k, kind v = .inr k ∧ k.2.labels.Nodup) (hone : h.priorSum = 1) (W : ℕ → L)
    (hW : ∀ v < n, W v ∈ labelsOf kind v) (scaling : ℚ) (dists : List (ℕ × ℚ)) :
    ∃ boxes : List Box, (∀ b ∈ boxes, b.OK n) ∧ boxes.Pairwise (fun a b => a.1.2 ≤ b.1.1) ∧
      (∀ w : Draw, w.OK n → (sampleTree val h [w] = .ok [(List.range n).map (fun v => .inr (W v))] ↔
        ∃ b ∈ boxes, b.Mem n w)) ∧
      likelihood idx scaling dists kind n h [(List.range n).map (fun v => .inr (W v))] =
        .ok [(boxes.map (Box.volume n)).sum] := by
  have h0 : ∀ p ∈ h.leaves.map (fun l => l.2.prior), 0 ≤ p := by
    intro p hp
    obtain ⟨l, hl, rfl⟩ := List.mem_map.1 hp
    exact ht.prior l hl
  have h1 : (h.leaves.map (fun l => l.2.prior)).sum = 1 := hone
  set ps := h.leaves.map (fun l => l.2.prior) with hps
  have hplen : ps.length = h.leaves.length := by rw [hps, List.length_map]
  let box : (ℕ × Leaf (MD L)) → ℕ → Box := fun l i => (((ps.take i).sum, (ps.take (i + 1)).sum), fun v =>
    (((paramsOf l.2 v).take ((labelsOf kind v).idxOf (W v))).sum,
      ((paramsOf l.2 v).take ((labelsOf kind v).idxOf (W v) + 1)).sum))
  have htake : ∀ (qs : List ℚ), (∀ q ∈ qs, 0 ≤ q) → qs.sum = 1 → ∀ i, 0 ≤ (qs.take i).sum ∧
      (qs.take i).sum ≤ (qs.take (i + 1)).sum ∧ (qs.take (i + 1)).sum ≤ 1 := by
    intro qs hq hs i
    refine ⟨List.sum_nonneg (fun q hq' => hq q (List.mem_of_mem_take hq')), take_sum_le hq (Nat.le_succ i), ?_⟩
    have := take_sum_le hq (Nat.le_max_left (i + 1) qs.length)
    rw [List.take_of_length_le (Nat.le_max_right (i + 1) qs.length), hs] at this
    exact this
  refine ⟨h.leaves.zipIdx.map (fun e => box e.1 e.2), ?_, ?_, ?_, ?_⟩
  · intro b hb
    obtain ⟨⟨l, i⟩, he, rfl⟩ := List.mem_map.1 hb
    have hl : l ∈ h.leaves := List.fst_mem_of_mem_zipIdx he
    obtain ⟨h2, h3, h4⟩ := htake ps h0 h1 i
    refine ⟨h2, h3, h4, fun v hv => ?_⟩
    obtain ⟨k, d, -, -, hok, hpar⟩ := leaf_disc ht hkind hl hv
    simp only [box, hpar]
    obtain ⟨-, -, -, -, h5, h6⟩ := hok
    exact htake _ h5 h6 _
  · rw [List.pairwise_iff_getElem]
    intro i j hi hj hij
    simp only [List.getElem_map, List.getElem_zipIdx, box, zero_add]
    exact take_sum_le h0 hij
  · intro w hw
    obtain ⟨hw0, hw1, hw2⟩ := hw
    have hlt := choose_lt h0 h1 hw1
    rw [hplen] at hlt
    have hone' : sampleTree val h [w] = .ok [(List.range n).map (fun v => .inr (W v))] ↔
        (h.leaves[choose ps w.1]).2.sampleRow val w.2 = .ok ((List.range n).map (fun v => .inr (W v))) := by
      simp only [sampleTree, ← hps, choiceCheck_ok h0 h1, bind, Except.bind, List.mapM_cons, List.mapM_nil,
        List.getElem?_eq_getElem hlt, pure, Except.pure]
      cases (h.leaves[choose ps w.1]).2.sampleRow val w.2 with
      | error e => simp
      | ok row => simp
    rw [hone', row_world ht hkind (List.getElem_mem hlt) hw2 W]
    constructor
    · intro hr
      refine ⟨box h.leaves[choose ps w.1] (choose ps w.1), ?_, ?_⟩
      · refine List.mem_map.2 ⟨(h.leaves[choose ps w.1], choose ps w.1), ?_, rfl⟩
        rw [List.mem_zipIdx_iff_getElem?]
        exact List.getElem?_eq_getElem hlt
      · obtain ⟨-, h2, h3⟩ := (choose_iff h0 h1 hw0 (choose ps w.1)).1 ⟨rfl, by rw [hplen]; exact hlt⟩
        exact ⟨h2, h3, hr⟩
    · rintro ⟨b, hb, hm⟩
      obtain ⟨⟨l, i⟩, he, rfl⟩ := List.mem_map.1 hb
      rw [List.mem_zipIdx_iff_getElem?] at he
      obtain ⟨hi, he⟩ := List.getElem?_eq_some_iff.1 he
      simp only at hi he
      obtain ⟨h2, h3, h4⟩ := hm
      have h5 := ((choose_iff h0 h1 hw0 i).2 ⟨by rw [hplen]; exact hi, h2, h3⟩).1
      intro v hv
      have h6 : h.leaves[choose ps w.1] = l := by
        rw [← he]
        congr 1
      rw [h6]
      exact h4 v hv
  · have := C84_probability ht hkind scaling dists [W] (by simp) (by
      intro w hw v hv k hk
      simp only [List.mem_singleton] at hw
      subst hw
      have := hW v hv
      unfold labelsOf at this
      rw [hk] at this
      exact this)
    simp only [List.map_cons, List.map_nil] at this
    rw [this]
    congr 2
    unfold mass
    rw [List.map_map]
    congr 1
    apply List.ext_getElem
    · simp
    · intro i hi hi'
      have hi2 : i < h.leaves.length := by simpa using hi
      simp only [List.getElem_map, List.getElem_zipIdx, Function.comp, Box.volume, box, zero_add]
      rw [take_step (p := (h.leaves[i]).2.prior) (by
        rw [hps, List.getElem?_map, List.getElem?_eq_getElem hi2]
        rfl)]
      congr 1
      unfold leafProb worldQuery
      rw [List.map_map]
      congr 1
      apply List.map_congr_left
      intro v hv
      have hv := List.mem_range.1 hv
      obtain ⟨k, d, hk, hd, hok, hpar⟩ := leaf_disc ht hkind (List.getElem_mem hi2) hv
      have hlab : labelsOf kind v = k.2.labels := by unfold labelsOf; rw [hk]
      have hx := hW v hv
      rw [hlab] at hx
      have hlt : k.2.labels.idxOf (W v) < d.2.params.length := by
        obtain ⟨-, h2, h3, h4, -, -⟩ := hok
        rw [h4, h2]
        exact List.idxOf_lt_length_iff.2 hx
      simp only [Function.comp, hd, hk, worldRegion, hpar, hlab]
      rw [take_step (List.getElem?_eq_getElem hlt), ← discP_single hok hlt]
      rfl

omit [DecidableEq L] in
theorem NumDensity.pos_between {top : ℚ} {s : List ℤ} {F g : ℤ → ℚ} (h : NumDensity val top s F g) (ht : 0 < top)
    {a b n : ℤ} (ha : a ∈ s) (hb : b ∈ s) (h1 : a ≤ n) (h2 : n ≤ b) : 0 < g n := by
  obtain ⟨lo, hi, hlo, hhi, hs, h3, h4⟩ := h
  have ha' := hs a ha
  have hb' := hs b hb
  rcases (hs hi hhi).1.lt_or_eq with hlt | heq
  · obtain ⟨h5, h6, -⟩ := h4 hlt
    rcases lt_or_eq_of_le (show n ≤ hi by omega) with h | rfl
    · exact (h5 n (by omega) h).1
    · rw [h6]
      exact (h5 _ (by omega) (by omega)).1
  · rw [h3 heq, if_pos (by omega)]
    exact ht

/-- Every row that is sampled from a learned tree is possible: it has a positive likelihood.

Partial: the full claim includes that rows can be sampled; for trees of symbolic and integer variables this is `C86_rows`,
for numeric variables see `C86_violated_numeric`.  The numbers in the rows have to be floats, which is what rounding is
for. -/
theorem C86_possible_partial {eps : ℚ} {c : Cfg} {data : Data} {total : ℕ} (hval : StrictMono val)
    (hidx : ∀ n, idx (val n) = n) (hk : Kinds c kind) (hdata : DataOK c data total) (hfl : Floats val c data total)
    {h : Heap (MD L)} (hl : learn c data total (fitMix val idx eps kind data) = .ok h) (scaling : ℚ) (hs : 0 < scaling)
    (dists : List (ℕ × ℚ))
    (hdist : ∀ v, v < c.vars.length → kind v = .inl () → ∃ δ, dists.lookup v = some δ ∧ 0 < δ)
    (draws : List Draw) (hd : ∀ w ∈ draws, w.OK c.vars.length) (hne : draws ≠ []) (rows : List (List (Cell L)))
    (hrows : sampleTree val h draws = .ok rows) (hfloat : ∀ row ∈ rows, ∀ x, .inl x ∈ row → ∃ n, x = val n) :
    ∃ ps, likelihood idx scaling dists kind c.vars.length h rows = .ok ps ∧ ps.length = draws.length ∧ ∀ p ∈ ps, 0 < p := by
  obtain ⟨ix, hI⟩ := Learn.learn_inv hdata hl
  have hin : ∀ e ∈ h.leaves, ∀ r ∈ e.2.rows, r < total := by
    intro e he r hr
    have := hI.rows.mem_iff (a := r)
    simp only [List.flatMap_nil, List.append_nil, List.mem_flatMap, List.mem_range] at this
    exact this.1 ⟨e, he, hr⟩
  have hdists : ∀ l ∈ h.leaves, ∀ v, v < c.vars.length →
      l.2.dists[v]? = some (fitMix val idx eps kind data l.2.rows v) := by
    intro l hl' v hv
    rw [(hI.leaf l hl').dists, List.getElem?_map, List.getElem?_range hv]
    rfl
  have hlen : ∀ l ∈ h.leaves, l.2.dists.length = c.vars.length := fun l hl' => by
    rw [(hI.leaf l hl').dists]; simp
  -- every row comes from a leaf
  have hfor : List.Forall₂ (fun (w : Draw) row => ∃ l ∈ h.leaves, l.2.sampleRow val w.2 = .ok row) draws rows := by
    simp only [sampleTree, bind, Except.bind] at hrows
    cases h1 : Num.choiceCheck (h.leaves.map (fun l => l.2.prior)) with
    | error e => rw [h1] at hrows; cases hrows
    | ok u =>
      rw [h1] at hrows
      refine ((mapM_ok_iff _ _ _).1 hrows).imp (fun w row hw => ?_)
      cases h2 : h.leaves[choose (h.leaves.map (fun l => l.2.prior)) w.1]? with
      | none => rw [h2] at hw; cases hw
      | some l =>
        rw [h2] at hw
        exact ⟨l, List.mem_of_getElem? h2, hw⟩
  let w : List (Cell L) → ℕ → Cell L := fun row v => row[v]?.getD (.inl 0)
  have hrow : ∀ row ∈ rows, row = (List.range c.vars.length).map (w row) ∧ ∃ d ∈ draws, ∃ l ∈ h.leaves,
      ∀ v, v < c.vars.length → sampleCell val (fitMix val idx eps kind data l.2.rows v) (d.2 v) = .ok (w row v) ∧
        w row v ∈ row := by
    intro row hr
    obtain ⟨d, hd', l, hl', h1⟩ := forall₂_left' hfor.flip hr
    obtain ⟨h2, h3⟩ := (row_iff l.2 (hlen l hl') d.2 row).1 h1
    have hget : ∀ v, v < c.vars.length → row[v]? = some (w row v) := by
      intro v hv
      simp only [w]
      rw [List.getElem?_eq_getElem (by omega)]
      rfl
    refine ⟨?_, d, hd', l, hl', fun v hv => ⟨h3 v _ _ (hdists l hl' v hv) (hget v hv), List.mem_of_getElem? (hget v hv)⟩⟩
    apply List.ext_getElem?
    intro v
    rcases lt_or_ge v c.vars.length with hv | hv
    · rw [hget v hv, List.getElem?_map, List.getElem?_range hv]; rfl
    · rw [List.getElem?_eq_none (by omega), List.getElem?_eq_none (by simpa using hv)]
  -- what the cells are
  have hcell : ∀ l ∈ h.leaves, ∀ v, v < c.vars.length → ∀ (d : ℕ × ℚ) x, 0 < d.2 → d.2 ≤ 1 →
      sampleCell val (fitMix val idx eps kind data l.2.rows v) d = .ok x →
      (kind v = .inl () → ∃ y a b, x = .inl y ∧ a ∈ l.2.rows.map (fun r => idx (data r v)) ∧
        b ∈ l.2.rows.map (fun r => idx (data r v)) ∧ val a ≤ y ∧ y ≤ val b) ∧
      (∀ k, kind v = .inr k → ∃ y ∈ k.2.labels, x = .inr y ∧
        0 < l.2.rows.countP (fun r => decide (data r v = (k.2.labels.idxOf y : ℚ)))) := by
    intro l hl' v hv d x hd0 hd1 hx
    have hnel := (hI.leaf l hl').nonempty
    constructor
    · intro hkv
      simp only [fitMix, hkv] at hx
      obtain ⟨h1, -⟩ := fitNum_spec (eps := eps) (data := data) hval hidx (rows := l.2.rows) (v := v) hnel (fun r hr => by
        obtain ⟨n, hn⟩ := hfl v (hk.numeric hv hkv) r r (hin l hl' r hr) (hin l hl' r hr)
        exact ⟨n, by rw [← hn]; ring⟩)
      have hnel' : l.2.rows.map (fun r => idx (data r v)) ≠ [] := by simpa using hnel
      obtain ⟨lo, hlo, hmin⟩ := Num.exists_least hnel'
      obtain ⟨hi, hhi, hmax⟩ := Num.exists_greatest hnel'
      simp only [sampleCell, bind, Except.bind] at hx
      cases hs' : Num.sample' val (fitNum val idx eps data l.2.rows v) [d] with
      | error e => rw [hs'] at hx; cases hx
      | ok out =>
        have hran := Num.sample_range hval h1 hlo hhi (fun z hz => ⟨hmin z hz, hmax z hz⟩) hd0.le hd1 hs'
        rw [hs'] at hx
        simp only at hx
        match out, hx, hran with
        | [y], hx, hran =>
          cases hx
          obtain ⟨h2, h3⟩ := hran y (by simp)
          exact ⟨y, lo, hi, rfl, hlo, hhi, h2, h3⟩
    · intro k hkv
      obtain ⟨h1, h2⟩ := hk.discrete hv hkv
      obtain ⟨h3, h4⟩ := fitDisc_spec h1 (fun r hr => hdata r (hin l hl' r hr)) hnel
      rw [h2] at h3
      simp only [fitMix, hkv] at hx
      obtain ⟨i, hi, h5, h6, h7⟩ := cell_index h3 val d.1 hd0 hd1
      rw [h5] at hx
      cases hx
      refine ⟨_, List.getElem_mem hi, rfl, ?_⟩
      have hnd : k.2.labels.Nodup := by rw [← h2]; exact h1.1
      rw [List.Nodup.idxOf_getElem hnd]
      have hip : i < (fitDisc (domOf kind) data l.2.rows v).2.params.length := by
        obtain ⟨-, h8, -, h9, -, -⟩ := h3
        rw [h9, h8]; exact hi
      have hstep := take_step (List.getElem?_eq_getElem hip)
      rw [← discP_single h3 hip, h4] at hstep
      by_contra hc
      have hz : l.2.rows.countP (fun r => decide ((Region.set [(i : ℤ)]).Mem (.fin (data r v)))) = 0 := by
        rw [List.countP_eq_zero]
        intro r hr hm
        have h0 : l.2.rows.countP (fun r => decide (data r v = (i : ℚ))) = 0 := by omega
        rw [List.countP_eq_zero] at h0
        refine h0 r hr ?_
        simp only [decide_eq_true_eq] at hm ⊢
        obtain ⟨z, hz, e⟩ := hm
        rw [List.mem_singleton.1 hz] at e
        exact_mod_cast XQ.fin.inj e
      rw [hz] at hstep
      simp only [Nat.cast_zero, zero_div] at hstep
      linarith
  have hdOK : ∀ d ∈ draws, ∀ v, v < c.vars.length → 0 < (d.2 v).2 ∧ (d.2 v).2 ≤ 1 := fun d hd' v hv => (hd d hd').2.2 v hv
  have hok : ∀ row ∈ rows, ∀ v, v < c.vars.length → CellOK val (kind v) (w row v) := by
    intro row hr v hv
    obtain ⟨-, d, hd', l, hl', h1⟩ := hrow row hr
    obtain ⟨h2, h3⟩ := hcell l hl' v hv (d.2 v) _ (hdOK d hd' v hv).1 (hdOK d hd' v hv).2 (h1 v hv).1
    cases hkv : kind v with
    | inl u =>
      obtain ⟨y, -, -, h4, -⟩ := h2 hkv
      rw [h4]
      refine hfloat row hr y ?_
      rw [← h4]
      exact (h1 v hv).2
    | inr k =>
      obtain ⟨y, hy, h4, -⟩ := h3 k hkv
      rw [h4]
      exact hy
  obtain ⟨dens, h1, h2⟩ := C84_world_partial hval hidx hk hdata hl scaling dists
    (fun v hv hkv => by
      obtain ⟨δ, h1, h2⟩ := hdist v hv hkv
      exact ⟨δ, h1, h2.ne'⟩) (rows.map w) (by
        intro h0
        have := hfor.length_eq
        rw [List.map_eq_nil_iff.1 h0] at this
        exact hne (List.length_eq_zero_iff.1 this)) (by
        intro w' hw'
        obtain ⟨row, hr, rfl⟩ := List.mem_map.1 hw'
        exact hok row hr)
  have hrows' : (rows.map w).map (fun w => (List.range c.vars.length).map w) = rows := by
    rw [List.map_map]
    conv_rhs => rw [← List.map_id rows]
    apply List.map_congr_left
    intro row hr
    exact (hrow row hr).1.symm
  rw [hrows'] at h1
  refine ⟨_, h1, by simp [hfor.length_eq], ?_⟩
  intro p hp
  rw [List.map_map] at hp
  obtain ⟨row, hr, rfl⟩ := List.mem_map.1 hp
  simp only [Function.comp]
  have hnn : ∀ l ∈ h.leaves, ∀ v, v < c.vars.length → 0 ≤ dens l.2 v (w row v) := by
    intro l hl' v hv
    obtain ⟨h3, h4⟩ := (h2 l hl').2 v hv
    have hc := hok row hr v hv
    cases hkv : kind v with
    | inl u =>
      rw [hkv] at hc
      cases hx : w row v with
      | inr y => rw [hx] at hc; exact hc.elim
      | inl y =>
        rw [hx] at hc
        obtain ⟨n, rfl⟩ := hc
        obtain ⟨δ, h5, h6⟩ := hdist v hv hkv
        obtain ⟨p, F, -, -, h7⟩ := h4 hkv δ h5
        exact h7.nonneg (div_pos hs h6).le n
    | inr k =>
      rw [hkv] at hc
      cases hx : w row v with
      | inl y => rw [hx] at hc; exact hc.elim
      | inr y =>
        rw [hx] at hc
        rw [h3 k hkv y hc]
        positivity
  obtain ⟨-, d, hd', e, he, hcells⟩ := hrow row hr
  have hlenpos : (0 : ℚ) < e.2.rows.length := by
    exact_mod_cast List.length_pos_iff.2 (hI.leaf e he).nonempty
  have htot : (0 : ℚ) < total := by
    obtain ⟨r, hr'⟩ := List.exists_mem_of_ne_nil _ (hI.leaf e he).nonempty
    have := hin e he r hr'
    exact_mod_cast (by omega : 0 < total)
  rw [Num.map_sum_pos']
  · refine ⟨e, he, mul_pos ?_ (List.prod_pos ?_)⟩
    · rw [(h2 e he).1]
      positivity
    · intro y hy
      obtain ⟨v, hv, rfl⟩ := List.mem_map.1 hy
      have hv := List.mem_range.1 hv
      obtain ⟨h3, h4⟩ := (h2 e he).2 v hv
      obtain ⟨h5, h6⟩ := hcell e he v hv (d.2 v) _ (hdOK d hd' v hv).1 (hdOK d hd' v hv).2 (hcells v hv).1
      have hc := hok row hr v hv
      cases hkv : kind v with
      | inl u =>
        obtain ⟨y, a, b, h7, ha, hb, h8, h9⟩ := h5 hkv
        rw [hkv, h7] at hc
        obtain ⟨n, rfl⟩ := hc
        obtain ⟨δ, h10, h11⟩ := hdist v hv hkv
        obtain ⟨p, F, -, -, h12⟩ := h4 hkv δ h10
        rw [h7]
        exact h12.pos_between (div_pos hs h11) (n := n) ha hb (hval.le_iff_le.1 h8) (hval.le_iff_le.1 h9)
      | inr k =>
        obtain ⟨y, hy, h7, h8⟩ := h6 k hkv
        rw [h7, h3 k hkv y hy]
        have h9 : (0 : ℚ) < (e.2.rows.countP (fun r => decide (data r v = (k.2.labels.idxOf y : ℚ))) : ℚ) := by
          exact_mod_cast h8
        exact div_pos h9 hlenpos
  · intro l hl'
    refine mul_nonneg ?_ (List.prod_nonneg ?_)
    · rw [(h2 l hl').1]; positivity
    · intro y hy
      obtain ⟨v, hv, rfl⟩ := List.mem_map.1 hy
      exact hnn l hl' v (List.mem_range.1 hv)

/-! ## Examples -/

/-- The leaf is chosen by the first number, the labels by the others. -/
example : ∃ h, learn (exA.cfg 6) exData 6 (fitMix Fun.ival Rat.floor 0 exKinds exData) = .ok h ∧ h.priorSum = 1 ∧
    sampleTree Fun.ival h [(1 / 4, fun _ => (0, 1 / 2)), (1 / 4, fun _ => (0, 3 / 4)), (1 / 2, fun _ => (0, 1 / 3)),
      (3 / 4, fun _ => (0, 1))] =
      .ok [[.inr 10, .inr 1], [.inr 10, .inr 2], [.inr 20, .inr 2], [.inr 20, .inr 3]] :=
  exists_ok (by decide +kernel)

/-- The theorem on the distribution applies to this tree: the label 10 with the integer 2 has the probability 1/6. -/
example {h : Heap (MD ℤ)} (hl : learn (exA.cfg 6) exData 6 (fitMix Fun.ival Rat.floor 0 exKinds exData) = .ok h)
    (hone : h.priorSum = 1) (ht : TreeOK (mixOk Fun.ival) (mixFits Fun.ival) (mixP Fun.ival Rat.floor) exKinds
      (fullOf (exA.cfg 6)) 2 h) :
    ∃ boxes : List Box, (∀ w : Draw, w.OK 2 → (sampleTree Fun.ival h [w] = .ok [[.inr 10, .inr 2]] ↔
      ∃ b ∈ boxes, b.Mem 2 w)) ∧ (boxes.map (Box.volume 2)).sum = 1 / 6 := by
  obtain ⟨boxes, -, -, h3, h4⟩ := C86_distribution ht (fun v hv => by
    match v, hv with
    | 0, _ => exact ⟨_, rfl, by decide⟩
    | 1, _ => exact ⟨_, rfl, by decide⟩) hone (fun v => if v = 0 then 10 else 2) (fun v hv => by
    match v, hv with
    | 0, _ => decide
    | 1, _ => decide) 2 []
  refine ⟨boxes, h3, ?_⟩
  have h5 : (learn (exA.cfg 6) exData 6 (fitMix Fun.ival Rat.floor 0 exKinds exData)).toOption.map (fun h =>
      likelihood Rat.floor 2 [] exKinds 2 h [[.inr 10, .inr 2]]) = some (.ok [1 / 6]) := by decide +kernel
  rw [hl] at h5
  have h6 := (Option.some.inj h5).symm.trans h4
  have h7 := Except.ok.inj h6
  exact (List.cons.inj h7).1.symm

/-- Leaves with one number each. -/
example : ∃ h, learn (exD.cfg 6) exDData 6 (fitMix Fun.ival Rat.floor (1 / 100) exDKind exDData) = .ok h ∧
    sampleTree Fun.ival h [(1 / 4, fun _ => (0, 1 / 2)), (1 / 2, fun _ => (0, 1 / 2))] = .ok [[.inl 0], [.inl 10]] ∧
    likelihood Rat.floor 2 [(0, 10)] exDKind 1 h [[.inl 0], [.inl 10]] = .ok [1 / 10, 1 / 10] :=
  exists_ok (by decide +kernel)

/-- The theorem on samples of learned trees applies to this tree. -/
example {h : Heap (MD ℤ)} (hl : learn (exD.cfg 6) exDData 6 (fitMix Fun.ival Rat.floor (1 / 100) exDKind exDData) = .ok h)
    (hr : sampleTree Fun.ival h [(1 / 4, fun _ => (0, 1 / 2)), (1 / 2, fun _ => (0, 1 / 2))] = .ok [[.inl 0], [.inl 10]]) :
    ∃ ps, likelihood Rat.floor 2 [(0, 10)] exDKind 1 h [[.inl 0], [.inl 10]] = .ok ps ∧ ps.length = 2 ∧ ∀ p ∈ ps, 0 < p := by
  refine C86_possible_partial (c := exD.cfg 6) (kind := exDKind) (idx := Rat.floor) Fun.ival_strictMono
    (fun n => by simp [Fun.ival]) ?_ ?_ ?_ hl 2 (by norm_num) [(0, 10)] ?_ _ ?_ (by simp) _ hr ?_
  · intro v hv
    match v, hv with
    | 0, _ => exact .inl ⟨rfl, rfl⟩
    | v + 1, hv => exact absurd hv (by simp [exD, Learn.Args.cfg])
  · intro r hr v n hv
    match v, hv with
    | 0, hv => rcases hv with hv | hv <;> exact absurd hv (by simp [exD, Learn.Args.cfg])
    | v + 1, hv => rcases hv with hv | hv <;> exact absurd hv (by simp [exD, Learn.Args.cfg])
  · intro v hv r r' hr hr'
    have key : ∀ r, ∃ k : ℤ, exDData r v = 2 * k := by
      intro r
      unfold exDData
      split
      · exact ⟨0, by norm_num⟩
      · exact ⟨5, by norm_num⟩
    obtain ⟨k, hk⟩ := key r
    obtain ⟨k', hk'⟩ := key r'
    exact ⟨k + k', by rw [hk, hk']; simp only [Fun.ival]; push_cast; ring⟩
  · intro v hv _
    match v, hv with
    | 0, _ => exact ⟨10, rfl, by norm_num⟩
    | v + 1, hv => exact absurd hv (by simp [exD, Learn.Args.cfg])
  · intro w hw
    simp only [List.mem_cons, List.not_mem_nil, or_false] at hw
    rcases hw with rfl | rfl <;> refine ⟨by norm_num, by norm_num, fun v _ => ⟨by norm_num, by norm_num⟩⟩
  · intro row hrow x hx
    simp only [List.mem_cons, List.not_mem_nil, or_false] at hrow
    rcases hrow with rfl | rfl <;> simp only [List.mem_singleton, Sum.inl.injEq] at hx <;> subst hx
    · exact ⟨0, by simp [Fun.ival]⟩
    · exact ⟨10, by simp [Fun.ival]⟩

/-! ## Disagreements -/

/-- If the random number for a variable is 0, the first label is returned even if it is impossible: the world is sampled
although its likelihood is 0. -/
theorem C86_violated_zero : ∃ h, learn (exA.cfg 6) exData 6 (fitMix Fun.ival Rat.floor 0 exKinds exData) = .ok h ∧
    sampleTree Fun.ival h [(1 / 2, fun v => (0, if v = 0 then 0 else 1))] = .ok [[.inr 10, .inr 3]] ∧
    likelihood Rat.floor 2 [] exKinds 2 h [[.inr 10, .inr 3]] = .ok [0] := exists_ok (by decide +kernel)

def exG : Learn.Args := ⟨[.numeric], [], [], .int 4, none, none, none, fun _ => false⟩

def exGData : Data := fun r _ => if r < 2 then 0 else (r : ℚ) - 1

def exGFit : List ℕ → ℕ → MD ℤ := fitMix Num.fine (fun x => (x * 2 ^ 27).floor) (1 / 100) exDKind exGData

/-- The check of the probabilities fails. -/
def noChoice : MD ℤ → Bool
  | .inl p => decide (p.length = 3) && decide ((do Num.choiceCheck (← Num.pieceProbs Num.fine p)) = .error .valueError)
  | .inr _ => false

theorem sampleCell_noChoice {d : MD ℤ} (h : noChoice d = true) (w : ℕ × ℚ) :
    sampleCell Num.fine d w = .error .valueError := by
  cases d with
  | inr d => cases h
  | inl p =>
    simp only [noChoice, Bool.and_eq_true, decide_eq_true_eq] at h
    obtain ⟨h1, h2⟩ := h
    have : Num.sample' Num.fine p [w] = .error .valueError := by
      match p, h1 with
      | [a, b, c], _ =>
        simp only [Num.sample', bind, Except.bind] at h2 ⊢
        cases h3 : Num.pieceProbs Num.fine [a, b, c] with
        | error e => rw [h3] at h2; cases h2; rfl
        | ok ps =>
          rw [h3] at h2
          simp only at h2 ⊢
          rw [h2]
    simp only [sampleCell, this, bind, Except.bind]

/-- A tree learned from the numbers 0, 0, 1 and 2 cannot be sampled: the distribution of a leaf with a duplicated least
number cannot (`C77_violated_duplicated_minimum`). -/
theorem C86_violated_numeric : ∃ h, learn (exG.cfg 4) exGData 4 exGFit = .ok h ∧ h.priorSum = 1 ∧
    ∀ draws : List Draw, draws ≠ [] → (∀ w ∈ draws, w.OK 1) → sampleTree Num.fine h draws = .error .valueError := by
  obtain ⟨h, h1, h2, h3⟩ : ∃ h, learn (exG.cfg 4) exGData 4 exGFit = .ok h ∧
      h.leaves.map (fun l => l.2.prior) = [1] ∧ ∀ l ∈ h.leaves, l.2.dists.map noChoice = [true] :=
    exists_ok (by decide +kernel)
  refine ⟨h, h1, by unfold Heap.priorSum; rw [h2]; simp, fun draws hne hd => ?_⟩
  obtain ⟨w, r, rfl⟩ := List.exists_cons_of_ne_nil hne
  obtain ⟨hw0, hw1, -⟩ := hd w (by simp)
  obtain ⟨l, hl⟩ := List.length_eq_one_iff.1 (by simpa using congrArg List.length h2 : h.leaves.length = 1)
  have hch : choose [1] w.1 = 0 := by
    have := choose_lt (ps := [1]) (by simp) (by simp) hw1
    simpa using this
  have hrow : l.2.sampleRow Num.fine w.2 = .error .valueError := by
    have h4 := h3 l (by rw [hl]; simp)
    obtain ⟨d, hd'⟩ := List.length_eq_one_iff.1 (by simpa using congrArg List.length h4 : l.2.dists.length = 1)
    rw [hd'] at h4
    simp only [List.map_cons, List.map_nil, List.cons.injEq, and_true] at h4
    simp only [Leaf.sampleRow, hd', List.zipIdx_cons, List.zipIdx_nil, List.mapM_cons, sampleCell_noChoice h4, bind,
      Except.bind]
  have hc : Num.choiceCheck [1] = .ok () := by decide +kernel
  have hl0 : h.leaves[0]? = some l := by rw [hl]; rfl
  simp only [sampleTree, h2, hc, hch, hl0, bind, Except.bind, List.mapM_cons, hrow]

end Verif.Trees
