import Verif.Learn.Model
import Verif.CUtils.Lemmas
import Verif.ListAux
import Mathlib.Data.List.Sort
import Mathlib.Tactic.Ring

/-!
# The search for the best split: helper lemmas
-/

namespace Verif.Learn

open Trees

/-! ## Sorting -/

theorem range_getD (l : List ℕ) : (List.range' 0 l.length).map (fun i => l.getD i 0) = l := by
  apply List.ext_getElem?
  intro i
  rcases Nat.lt_or_ge i l.length with h | h
  · simp [h]
  · rw [List.getElem?_eq_none (by simpa using h), List.getElem?_eq_none h]

theorem sortRows_perm (key : ℕ → ℚ) (rows : List ℕ) : (sortRows key rows).Perm rows := by
  unfold sortRows CU.sort
  split
  · rw [range_getD]
  · have h := (CU.introsort_spec key (2 * Nat.log2 rows.length) (fun i => rows.getD i 0) 0
      rows.length).2.perm
    simp only [Nat.zero_add, Nat.sub_zero] at h
    rw [range_getD] at h
    exact h

theorem sortRows_sorted (key : ℕ → ℚ) (rows : List ℕ) :
    (sortRows key rows).Pairwise (fun a b => key a ≤ key b) := by
  unfold sortRows CU.sort
  rw [List.pairwise_map]
  split
  · rename_i h
    rw [h]; exact List.Pairwise.nil
  · have h := (CU.introsort_spec key (2 * Nat.log2 rows.length) (fun i => rows.getD i 0) 0
      rows.length).1
    rw [List.pairwise_iff_getElem]
    intro i j hi hj hij
    simp only [List.getElem_range', Nat.zero_add, Nat.one_mul] at *
    rw [List.length_range'] at hj
    exact h i j hij hj

theorem sortRows_length (key : ℕ → ℚ) (rows : List ℕ) : (sortRows key rows).length = rows.length :=
  (sortRows_perm key rows).length_eq

/-! ## Running statistics -/

/-- The statistics when the rows `L` are on the left and the counter is `m`. -/
def batch (T : Totals) (data : Data) (deps : List ℕ) (L : List ℕ) (m : ℕ) : ESt where
  sl t := if t ∈ deps then sumAt data L t else 0
  ql t := if t ∈ deps then sqSumAt data L t else 0
  sr t := if t ∈ deps then T.sum t - sumAt data L t else T.sum t
  qr t := if t ∈ deps then T.sq t - sqSumAt data L t else T.sq t
  cl t w := if t ∈ deps then binCount data L t w else 0
  cr t w := T.cnt t w - (if t ∈ deps then binCount data L t w else 0)
  num := m
  best := ⊥
  pos := none

theorem sumAt_snoc (data : Data) (L : List ℕ) (r t : ℕ) :
    sumAt data (L ++ [r]) t = sumAt data L t + data r t := by
  simp [sumAt, List.foldl_append]

theorem sqSumAt_snoc (data : Data) (L : List ℕ) (r t : ℕ) :
    sqSumAt data (L ++ [r]) t = sqSumAt data L t + data r t * data r t := by
  simp [sqSumAt, List.foldl_append]

theorem binCount_snoc (data : Data) (L : List ℕ) (r t w : ℕ) :
    binCount data (L ++ [r]) t w
      = if w = valIdx (data r t) then binCount data L t w + 1 else binCount data L t w := by
  simp [binCount, List.foldl_append]

/-- The state describes the rows `L` on the left with the counter `m`. -/
structure Track (c : Cfg) (T : Totals) (data : Data) (v : ℕ) (L : List ℕ) (m : ℕ) (st : ESt) :
    Prop where
  sl : c.hasNum (some v) = true → ∀ t, st.sl t = (batch T data (c.deps v) L m).sl t
  ql : c.hasNum (some v) = true → ∀ t, st.ql t = (batch T data (c.deps v) L m).ql t
  sr : c.hasNum (some v) = true → L ≠ [] → ∀ t, st.sr t = (batch T data (c.deps v) L m).sr t
  qr : c.hasNum (some v) = true → L ≠ [] → ∀ t, st.qr t = (batch T data (c.deps v) L m).qr t
  sr' : ∀ t, t ∉ c.deps v → st.sr t = T.sum t
  qr' : ∀ t, t ∉ c.deps v → st.qr t = T.sq t
  cl : c.hasSym = true → ∀ t w, st.cl t w = (batch T data (c.deps v) L m).cl t w
  cr : c.hasSym = true → ∀ t w, st.cr t w = (batch T data (c.deps v) L m).cr t w
  num : st.num = m

theorem Track.init (c : Cfg) (T : Totals) (data : Data) (v : ℕ) :
    Track c T data v [] 0 (ESt.init T) := by
  constructor <;> intros <;> simp_all [ESt.init, batch, sumAt, sqSumAt, binCount]

theorem Track.add {c : Cfg} {T : Totals} {data : Data} {v : ℕ} {L : List ℕ} {m : ℕ} {st : ESt}
    (h : Track c T data v L m st) (r : ℕ) :
    Track c T data v (L ++ [r]) (m + 1) (st.add T data (c.deps v) r) := by
  constructor
  · intro hn t
    have := h.sl hn t
    simp only [ESt.add, batch] at *
    split_ifs at * <;> simp_all [sumAt_snoc]
  · intro hn t
    have := h.ql hn t
    simp only [ESt.add, batch] at *
    split_ifs at * <;> simp_all [sqSumAt_snoc]
  · intro hn _ t
    have := h.sl hn t
    have h' := h.sr' t
    simp only [ESt.add, batch] at *
    split_ifs at * <;> simp_all [sumAt_snoc]
  · intro hn _ t
    have := h.ql hn t
    have h' := h.qr' t
    simp only [ESt.add, batch] at *
    split_ifs at * <;> simp_all [sqSumAt_snoc]
  · intro t ht
    simp only [ESt.add, if_neg ht]
    exact h.sr' t ht
  · intro t ht
    simp only [ESt.add, if_neg ht]
    exact h.qr' t ht
  · intro hs t w
    have := h.cl hs t w
    simp only [ESt.add, batch, binCount_snoc] at *
    by_cases ht : t ∈ c.deps v <;> by_cases hw : w = valIdx (data r t) <;> simp_all
  · intro hs t w
    have h1 := h.cl hs t w
    have := h.cr hs t w
    simp only [ESt.add, batch, binCount_snoc] at *
    by_cases ht : t ∈ c.deps v <;> by_cases hw : w = valIdx (data r t) <;> simp_all
  · simp [ESt.add, h.num]

theorem gainOf_congr {c : Cfg} {T : Totals} {v n : ℕ} {st st' : ESt} (h0 : st.num = st'.num)
    (h1 : c.hasNum (some v) = true → st.sl = st'.sl ∧ st.ql = st'.ql ∧ st.sr = st'.sr ∧ st.qr = st'.qr)
    (h2 : c.hasSym = true → st.cl = st'.cl ∧ st.cr = st'.cr) :
    gainOf c T v n st = gainOf c T v n st' := by
  obtain ⟨sl, ql, sr, qr, cl, cr, num, best, pos⟩ := st
  obtain ⟨sl', ql', sr', qr', cl', cr', num', best', pos'⟩ := st'
  simp only at h0 h1 h2
  subst h0
  unfold gainOf
  cases hn : c.hasNum (some v) <;> cases hs : c.hasSym
  · simp only [Bool.false_eq_true, if_false]
  · obtain ⟨rfl, rfl⟩ := h2 hs
    simp only [Bool.false_eq_true, if_false, if_true]
  · obtain ⟨rfl, rfl, rfl, rfl⟩ := h1 hn
    simp only [Bool.false_eq_true, if_false, if_true]
  · obtain ⟨rfl, rfl⟩ := h2 hs
    obtain ⟨rfl, rfl, rfl, rfl⟩ := h1 hn
    simp only [if_true]

theorem Track.gain {c : Cfg} {T : Totals} {data : Data} {v n : ℕ} {L : List ℕ} {m : ℕ} {st : ESt}
    (h : Track c T data v L m st) (hL : L ≠ []) :
    gainOf c T v n st = gainOf c T v n (batch T data (c.deps v) L m) :=
  gainOf_congr h.num
    (fun hn => ⟨funext (h.sl hn), funext (h.ql hn), funext (h.sr hn hL), funext (h.qr hn hL)⟩)
    (fun hs => ⟨funext fun t => funext (h.cl hs t), funext fun t => funext (h.cr hs t)⟩)

theorem Track.reset {c : Cfg} {T : Totals} {data : Data} {v : ℕ} {L : List ℕ} {m : ℕ} {st : ESt}
    (h : Track c T data v L m st) :
    Track c T data v [] (if c.hasSym then 0 else m) (st.reset c T v) := by
  unfold ESt.reset
  have e1 := h.sl
  have e2 := h.ql
  have e5 := h.sr'
  have e6 := h.qr'
  have e7 := h.cl
  have e8 := h.cr
  have e9 := h.num
  cases hs : c.hasSym <;> cases hn : c.hasNum (some v) <;> constructor <;> intros <;>
    simp_all [batch, sumAt, sqSumAt, binCount]

theorem Track.consider {c : Cfg} {T : Totals} {data : Data} {v : ℕ} {L : List ℕ} {m : ℕ} {st : ESt}
    (h : Track c T data v L m st) (g : WithBot ℚ) (p : ℕ) :
    Track c T data v L m (st.consider g p) := by
  unfold ESt.consider
  split
  · exact ⟨h.sl, h.ql, h.sr, h.qr, h.sr', h.qr', h.cl, h.cr, h.num⟩
  · exact h

/-! ## The loop over the positions -/

/-- Where the loop computes an improvement: between different values, and for a symbolic feature also
at the end. -/
def Cand (data : Data) (v : ℕ) (symbolic : Bool) (buf : List ℕ) (q : ℕ) : Prop :=
  if symbolic then
    q + 1 = buf.length ∨
      q + 1 < buf.length ∧ data (buf.getD q 0) v ≠ data (buf.getD (q + 1) 0) v
  else q + 1 < buf.length ∧ data (buf.getD q 0) v ≠ data (buf.getD (q + 1) 0) v

/-- The rows on the left of a candidate: everything up to it, or the rows with its value. -/
def leftAt (data : Data) (v : ℕ) (symbolic : Bool) (buf : List ℕ) (q : ℕ) : List ℕ :=
  if symbolic then buf.filter (fun r => decide (data r v = data (buf.getD q 0) v))
  else buf.take (q + 1)

/-- The number of rows the loop counts on the left of a candidate. -/
def numAt (c : Cfg) (data : Data) (v : ℕ) (symbolic : Bool) (buf : List ℕ) (q : ℕ) : ℕ :=
  if symbolic && c.hasSym then (leftAt data v symbolic buf q).length else q + 1

/-- The improvement the loop computes for a candidate. -/
def gainAt (c : Cfg) (T : Totals) (data : Data) (v : ℕ) (symbolic : Bool) (buf : List ℕ) (q : ℕ) :
    WithBot ℚ :=
  if (numAt c data v symbolic buf q : ℚ) < c.minSamples ∨
      ((buf.length - numAt c data v symbolic buf q : ℕ) : ℚ) < c.minSamples then ⊥
  else ((gainOf c T v buf.length (batch T data (c.deps v) (leftAt data v symbolic buf q)
    (numAt c data v symbolic buf q)) : ℚ) : WithBot ℚ)

/-- `(best, pos)` is the first best of the candidates before `p`. -/
def Scan (cand : ℕ → Prop) (g : ℕ → WithBot ℚ) (p : ℕ) (best : WithBot ℚ) (pos : Option ℕ) : Prop :=
  (∀ q, q < p → cand q → g q ≤ best) ∧
  (best = ⊥ ∨ ∃ q, q < p ∧ cand q ∧ pos = some q ∧ g q = best ∧
    ∀ q', q' < q → cand q' → g q' < best)

theorem Scan.skip {cand : ℕ → Prop} {g : ℕ → WithBot ℚ} {p : ℕ} {best : WithBot ℚ} {pos : Option ℕ}
    (h : Scan cand g p best pos) (hp : ¬ cand p) : Scan cand g (p + 1) best pos := by
  refine ⟨fun q hq hc => ?_, ?_⟩
  · rcases Nat.lt_succ_iff_lt_or_eq.1 hq with hq | rfl
    · exact h.1 q hq hc
    · exact absurd hc hp
  · rcases h.2 with h2 | ⟨q, h1, h2⟩
    · exact .inl h2
    · exact .inr ⟨q, by omega, h2⟩

theorem Scan.step {cand : ℕ → Prop} {g : ℕ → WithBot ℚ} {p : ℕ} {best : WithBot ℚ} {pos : Option ℕ}
    (h : Scan cand g p best pos) (hp : cand p) :
    Scan cand g (p + 1) (if g p > best then g p else best) (if g p > best then some p else pos) := by
  by_cases hg : g p > best
  · rw [if_pos hg, if_pos hg]
    refine ⟨fun q hq hc => ?_, .inr ⟨p, by omega, hp, rfl, rfl, fun q' hq' hc => ?_⟩⟩
    · rcases Nat.lt_succ_iff_lt_or_eq.1 hq with hq | rfl
      · exact (h.1 q hq hc).trans hg.le
      · exact le_refl _
    · exact lt_of_le_of_lt (h.1 q' hq' hc) hg
  · rw [if_neg hg, if_neg hg]
    refine ⟨fun q hq hc => ?_, ?_⟩
    · rcases Nat.lt_succ_iff_lt_or_eq.1 hq with hq | rfl
      · exact h.1 q hq hc
      · exact not_lt.1 hg
    · rcases h.2 with h2 | ⟨q, h1, h2⟩
      · exact .inl h2
      · exact .inr ⟨q, by omega, h2⟩

theorem Scan.consider {cand : ℕ → Prop} {g : ℕ → WithBot ℚ} {p : ℕ} {st st' : ESt}
    (h : Scan cand g p st.best st.pos) (hp : cand p) (h1 : st'.best = st.best)
    (h2 : st'.pos = st.pos) :
    Scan cand g (p + 1) (st'.consider (g p) p).best (st'.consider (g p) p).pos := by
  have hstep := h.step hp
  unfold ESt.consider
  rw [h1]
  by_cases hg : g p > st.best
  · rw [if_pos hg] at hstep ⊢
    rw [if_pos hg] at hstep
    exact hstep
  · rw [if_neg hg] at hstep ⊢
    rw [if_neg hg] at hstep
    rw [h1, h2]
    exact hstep

theorem getD_append_cons (pre : List ℕ) (r : ℕ) (rest : List ℕ) :
    (pre ++ r :: rest).getD pre.length 0 = r := by
  simp [List.getD]

theorem getD_append_cons2 (pre : List ℕ) (r r' : ℕ) (rest : List ℕ) :
    (pre ++ r :: r' :: rest).getD (pre.length + 1) 0 = r' := by
  simp [List.getD]

/-- The loop over a numeric feature. -/
theorem evalLoop_numeric (c : Cfg) (T : Totals) (data : Data) (v : ℕ) (buf : List ℕ) :
    ∀ (rest pre : List ℕ) (st : ESt), buf = pre ++ rest → rest ≠ [] →
      Track c T data v pre pre.length st →
      2 ≤ rest.length →
      Scan (Cand data v false buf) (gainAt c T data v false buf) pre.length st.best st.pos →
      Scan (Cand data v false buf) (gainAt c T data v false buf) buf.length
        (evalLoop c T data v buf.length false rest pre.length st).best
        (evalLoop c T data v buf.length false rest pre.length st).pos
  | [], _, _, _, h, _, _, _ => absurd rfl h
  | [_], _, _, _, _, _, h, _ => absurd h (by simp)
  | r :: r' :: rest, pre, st, hb, _, ht, _, hs => by
    have hr : buf.getD pre.length 0 = r := by rw [hb]; exact getD_append_cons _ _ _
    have hr' : buf.getD (pre.length + 1) 0 = r' := by rw [hb]; exact getD_append_cons2 _ _ _ _
    have hlen : buf.length = pre.length + (rest.length + 2) := by rw [hb]; simp
    have htake : buf.take (pre.length + 1) = pre ++ [r] := by
      rw [hb, List.take_append, List.take_of_length_le (by omega)]
      simp
    have ht1 := ht.add r
    have hcand : Cand data v false buf pre.length ↔ data r v ≠ data r' v := by
      unfold Cand
      simp only [Bool.false_eq_true, if_false, hr, hr']
      constructor
      · exact fun h => h.2
      · exact fun h => ⟨by omega, h⟩
    have hfin : ∀ p, rest = [] → p = pre.length + 1 → ∀ best pos,
        Scan (Cand data v false buf) (gainAt c T data v false buf) p best pos →
        Scan (Cand data v false buf) (gainAt c T data v false buf) buf.length best pos := by
      intro p hrest hp best pos h
      subst hp
      have hl : buf.length = pre.length + 1 + 1 := by rw [hlen, hrest]; rfl
      rw [hl]
      refine h.skip ?_
      unfold Cand
      simp only [Bool.false_eq_true, if_false]
      intro hc
      omega
    rw [evalLoop]
    simp only [sameNext, Bool.false_eq_true, if_false, Bool.not_false, Bool.true_or, Bool.true_and]
    by_cases he : data r v = data r' v
    · simp only [he, decide_true, if_true]
      have hs1 : Scan (Cand data v false buf) (gainAt c T data v false buf) (pre.length + 1)
          (st.add T data (c.deps v) r).best (st.add T data (c.deps v) r).pos :=
        hs.skip (fun h => hcand.1 h he)
      cases rest with
      | nil =>
        simp only [List.length_cons, List.length_nil, Nat.zero_add, BEq.rfl, if_true]
        exact hfin _ rfl rfl _ _ hs1
      | cons r'' rest =>
        have hne : (((r' :: r'' :: rest).length == 1) = false) := by simp
        rw [hne]
        simp only [Bool.false_eq_true, if_false]
        have := evalLoop_numeric c T data v buf (r' :: r'' :: rest) (pre ++ [r])
          (st.add T data (c.deps v) r) (by rw [hb]; simp) (by simp)
          (by rw [List.length_append]; exact ht1) (by simp)
          (by rw [List.length_append]; exact hs1)
        rw [List.length_append] at this
        exact this
    · simp only [he, decide_false, Bool.false_eq_true, if_false]
      have hc := hcand.2 he
      have hnum : numAt c data v false buf pre.length = pre.length + 1 := by simp [numAt]
      have hg : gainAt c T data v false buf pre.length =
          legalGain c T v buf.length (st.add T data (c.deps v) r) := by
        unfold gainAt legalGain
        rw [hnum, ht1.num, ht1.gain (n := buf.length) (by simp)]
        simp only [leftAt, Bool.false_eq_true, if_false, htake]
      rw [← hg]
      have hs3 := hs.consider hc (st' := st.add T data (c.deps v) r) rfl rfl
      cases rest with
      | nil =>
        simp only [List.length_cons, List.length_nil, Nat.zero_add, BEq.rfl, if_true]
        exact hfin _ rfl rfl _ _ hs3
      | cons r'' rest =>
        have hne : (((r' :: r'' :: rest).length == 1) = false) := by simp
        rw [hne]
        simp only [Bool.false_eq_true, if_false]
        have := evalLoop_numeric c T data v buf (r' :: r'' :: rest) (pre ++ [r])
          ((st.add T data (c.deps v) r).consider (gainAt c T data v false buf pre.length) pre.length)
          (by rw [hb]; simp) (by simp)
          (by rw [List.length_append]; exact ht1.consider _ _) (by simp)
          (by rw [List.length_append]; exact hs3)
        rw [List.length_append] at this
        exact this

end Verif.Learn
