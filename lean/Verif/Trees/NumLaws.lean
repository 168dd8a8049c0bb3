import Verif.Trees.NumDist
import Verif.Trees.Lemmas2
import Verif.Numeric.Props5

/-!
# Numeric distributions satisfy the laws of probabilities
-/

namespace Verif.Trees

open Iv (FP CS Br NS)
open Vars (RI)
open Fun (PF)
open Num

/-- The number of a float. -/
def emb (val : ℤ → ℚ) : FP → XQ
  | .ninf => .ninf
  | .fin n => .fin (val n)
  | .pinf => .pinf

/-- The interval of numbers. -/
def embI (val : ℤ → ℚ) (I : CS) : RI := ⟨emb val I.lower, emb val I.upper, I.left, I.right⟩

/-- Intervals of floats that begin with their lower bound, or have none. -/
def LeftClosed (I : CS) : Prop :=
  (I.lower = .ninf ∧ I.left = .exc ∨ (∃ n, I.lower = .fin n) ∧ I.left = .inc) ∧
  (I.upper = .pinf ∧ I.right = .exc ∨ ∃ n, I.upper = .fin n) ∧
  (I.lower < I.upper ∨ I.lower = I.upper ∧ I.right = .inc)

/-- The intervals for numeric variables: the empty set, and intervals between floats that begin with their lower
bound or have none. -/
def numFits (val : ℤ → ℚ) (r : Region) : Prop :=
  r = .num riEmptyset ∨ ∃ I : CS, LeftClosed I ∧ r = .num (embI val I)

variable {val : ℤ → ℚ}

theorem emb_le (hval : StrictMono val) {a b : FP} : emb val a ≤ emb val b ↔ a ≤ b := by
  cases a <;> cases b <;> simp [emb, FP.le_def, FP.leb, hval.le_iff_le]

theorem emb_lt (hval : StrictMono val) {a b : FP} : emb val a < emb val b ↔ a < b := by
  rw [lt_iff_not_ge, emb_le hval, not_le]

theorem emb_inj (hval : StrictMono val) {a b : FP} : emb val a = emb val b ↔ a = b := by
  rw [le_antisymm_iff, emb_le hval, emb_le hval, ← le_antisymm_iff]

theorem emb_max (hval : StrictMono val) (a b : FP) : max (emb val a) (emb val b) = emb val (max a b) := by
  rcases le_total a b with h | h
  · rw [max_eq_right h, max_eq_right ((emb_le hval).2 h)]
  · rw [max_eq_left h, max_eq_left ((emb_le hval).2 h)]

theorem emb_min (hval : StrictMono val) (a b : FP) : min (emb val a) (emb val b) = emb val (min a b) := by
  rcases le_total a b with h | h
  · rw [min_eq_left h, min_eq_left ((emb_le hval).2 h)]
  · rw [min_eq_right h, min_eq_right ((emb_le hval).2 h)]

theorem toCS_emb {idx : ℚ → ℤ} (hidx : ∀ n, idx (val n) = n) (I : CS) : toCS idx (embI val I) = I := by
  obtain ⟨a, b, l, r⟩ := I
  simp only [toCS, embI]
  cases a <;> cases b <;> simp [emb, toFP, hidx]

/-- The distribution by its mass below lower bounds and up to upper bounds. -/
structure Ends (A : FP → ℚ) (U : FP → Br → ℚ) : Prop where
  A_mono : Monotone A
  A_nonneg : ∀ x, 0 ≤ A x
  A_ninf : A .ninf = 0
  A_le : ∀ x, A x ≤ 1
  U_mono : ∀ x y b c, x < y → U x b ≤ U y c
  U_inc : ∀ x b, U x b ≤ U x .inc
  U_le : ∀ x b, U x b ≤ 1
  U_A : ∀ x y, x < y → U x .inc ≤ A y
  U_A' : ∀ x, U x .exc ≤ A x

/-- The mass of an interval. -/
def endMass (A : FP → ℚ) (U : FP → Br → ℚ) (I : CS) : ℚ := max 0 (U I.upper I.right - A I.lower)

/-- What `_p` returns. -/
def numP (val : ℤ → ℚ) (idx : ℚ → ℤ) (d : PF) (r : Region) : ℚ :=
  match (numOps val idx idx).p d r with
  | .ok q => q
  | .error _ => 0

/-- A numeric distribution as fitting and cropping produce it: of a single value, or with a cdf that increases from one
float to another. -/
def numOk (val : ℤ → ℚ) (d : PF) : Prop := (∃ x, d = jumpCdf x) ∨ ∃ lo hi F, SpanCdf val d lo hi F

theorem ends_dirac (x : ℤ) : Ends (fun y => if FP.fin x < y then 1 else 0)
    (fun y b => if FP.fin x < y ∨ FP.fin x = y ∧ b = .inc then 1 else 0) where
  A_mono := fun a b h => by
    by_cases h1 : FP.fin x < a
    · simp [h1, h1.trans_le h]
    · simp only [h1, if_false]; split <;> norm_num
  A_nonneg := fun y => by split <;> norm_num
  A_ninf := by simp [FP.lt_def, FP.leb]
  A_le := fun y => by split <;> norm_num
  U_mono := fun a b c d h => by
    by_cases h1 : FP.fin x < a ∨ FP.fin x = a ∧ c = .inc
    · rw [if_pos h1, if_pos]
      left
      rcases h1 with h1 | ⟨rfl, _⟩
      · exact h1.trans h
      · exact h
    · rw [if_neg h1]; split <;> norm_num
  U_inc := fun y b => by
    by_cases h1 : FP.fin x < y ∨ FP.fin x = y ∧ b = .inc
    · rw [if_pos h1, if_pos]
      rcases h1 with h1 | ⟨rfl, _⟩
      · exact .inl h1
      · exact .inr ⟨rfl, rfl⟩
    · rw [if_neg h1]; split <;> norm_num
  U_le := fun y b => by split <;> norm_num
  U_A := fun a b h => by
    by_cases h1 : FP.fin x < a ∨ FP.fin x = a ∧ Br.inc = .inc
    · rw [if_pos h1, if_pos]
      rcases h1 with h1 | ⟨rfl, _⟩
      · exact h1.trans h
      · exact h
    · rw [if_neg h1]; split <;> norm_num
  U_A' := fun y => by simp

/-- The mass up to an upper bound for a fitted cdf: `_p` returns 0 if the interval ends before the first sample. -/
def fitU (lo : ℤ) (F : ℤ → ℚ) (y : FP) (b : Br) : ℚ :=
  if FP.fin lo < y ∨ FP.fin lo = y ∧ b = .inc then below F y else 0

theorem SpanCdf.nonneg {d : PF} {lo hi : ℤ} {F : ℤ → ℚ} (h : SpanCdf val d lo hi F) (n : ℤ) : 0 ≤ F n := by
  rw [← h.zero (min n (lo - 1)) (by omega)]; exact h.mono (min_le_left _ _)

theorem SpanCdf.le_one {d : PF} {lo hi : ℤ} {F : ℤ → ℚ} (h : SpanCdf val d lo hi F) (n : ℤ) : F n ≤ 1 := by
  rw [← h.one (max n (hi + 1)) (by omega)]; exact h.mono (le_max_left _ _)

theorem below_mono {d : PF} {lo hi : ℤ} {F : ℤ → ℚ} (h : SpanCdf val d lo hi F) : Monotone (below F) := by
  intro a b hab
  cases a <;> cases b <;> simp [FP.le_def, FP.leb, below] at hab ⊢
  · exact SpanCdf.nonneg h _
  · exact h.mono hab
  · exact SpanCdf.le_one h _

theorem ends_fit {d : PF} {lo hi : ℤ} {F : ℤ → ℚ} (h : SpanCdf val d lo hi F) : Ends (below F) (fitU lo F) := by
  have h0 : ∀ x, 0 ≤ below F x := fun x => by
    have := below_mono h (show FP.ninf ≤ x by simp [FP.le_def, FP.leb])
    simpa [below] using this
  have h1 : ∀ x, below F x ≤ 1 := fun x => by
    have := below_mono h (show x ≤ FP.pinf by cases x <;> simp [FP.le_def, FP.leb])
    simpa [below] using this
  have hU : ∀ x b, fitU lo F x b ≤ below F x := fun x b => by
    unfold fitU; split
    · exact le_rfl
    · exact h0 x
  refine ⟨below_mono h, h0, rfl, h1, ?_, ?_, fun x b => (hU x b).trans (h1 x), ?_, fun x => hU x _⟩
  · intro x y b c hxy
    unfold fitU
    by_cases hc : FP.fin lo < x ∨ FP.fin lo = x ∧ b = .inc
    · rw [if_pos hc, if_pos]
      · exact below_mono h hxy.le
      · left
        rcases hc with hc | ⟨rfl, _⟩
        · exact hc.trans hxy
        · exact hxy
    · rw [if_neg hc]; split
      · exact h0 _
      · exact le_rfl
  · intro x b
    unfold fitU
    by_cases hc : FP.fin lo < x ∨ FP.fin lo = x ∧ b = .inc
    · rw [if_pos hc, if_pos]
      rcases hc with hc | ⟨rfl, _⟩
      · exact .inl hc
      · exact .inr ⟨rfl, rfl⟩
    · rw [if_neg hc]; split
      · exact h0 _
      · exact le_rfl
  · intro x y hxy
    exact (hU x _).trans (below_mono h hxy.le)

/-- A left-closed interval contains a float. -/
theorem LeftClosed.mem {I : CS} (h : LeftClosed I) : ∃ n, I.Mem (.fin n) := by
  obtain ⟨a, b, l, r⟩ := I
  obtain ⟨h1, h2, h3⟩ := h
  dsimp only at h1 h2 h3
  rcases h1 with ⟨rfl, rfl⟩ | ⟨⟨n, rfl⟩, rfl⟩
  · rcases h2 with ⟨rfl, rfl⟩ | ⟨m, rfl⟩
    · exact ⟨0, by simp [CS.Mem, FP.lt_def, FP.leb]⟩
    · exact ⟨m - 1, by simp [CS.Mem, FP.lt_def, FP.leb]⟩
  · exact ⟨n, .inr ⟨rfl, rfl⟩, h3⟩

theorem pInterval_fit {d : PF} {lo hi : ℤ} {F : ℤ → ℚ} (h : SpanCdf val d lo hi F) {I : CS} (hI : LeftClosed I) :
    pInterval val d I = .ok (endMass (below F) (fitU lo F) I) := by
  obtain ⟨m, hm⟩ := hI.mem
  rw [h.p hm]
  congr 1
  have hmono := below_mono h
  have hb := mem_bounds hm
  have h01 := h.one
  have hlt := h.lt
  have hz := h.zero
  have hle : below F I.lower ≤ below F I.upper := hmono (hb.1.trans hb.2)
  unfold endMass fitU
  obtain ⟨a, b, l, r⟩ := I
  obtain ⟨h1, h2, h3⟩ := hI
  dsimp only at h1 h2 h3 hle ⊢
  by_cases hc : FP.fin lo < b ∨ FP.fin lo = b ∧ r = .inc
  · rw [if_pos hc, max_eq_right (by linarith)]
    split
    · rfl
    · rename_i hni
      -- the interval begins after the last sample
      have ha : ∃ n, a = .fin n ∧ hi < n := by
        rcases h1 with ⟨rfl, rfl⟩ | ⟨⟨n, rfl⟩, rfl⟩ <;> cases r <;> rcases h2 with ⟨rfl, hr⟩ | ⟨k, rfl⟩ <;> (try cases hr) <;>
          simp [CS.intersects, CS.isempty, CS.isclosed, CS.itype, FP.lt_def, FP.le_def, FP.leb, FP.up, Br.code] at hc h3 hni ⊢ <;> omega
      obtain ⟨n, rfl, hn⟩ := ha
      have e1 : below F (.fin n) = 1 := h01 n hn
      have e2 : below F b = 1 := by
        apply le_antisymm
        · cases b <;> simp [below]
          exact SpanCdf.le_one h _
        · rw [← e1]; exact hle
      rw [e1, e2]; norm_num
  · rw [if_neg hc]
    have : (⟨.fin lo, .fin (hi + 1), .inc, .exc⟩ : CS).intersects ⟨a, b, l, r⟩ = false := by
      rcases h1 with ⟨rfl, rfl⟩ | ⟨⟨n, rfl⟩, rfl⟩ <;> cases r <;> rcases h2 with ⟨rfl, hr⟩ | ⟨k, rfl⟩ <;> (try cases hr) <;>
          simp [CS.intersects, CS.isempty, CS.isclosed, CS.itype, FP.lt_def, FP.le_def, FP.leb, FP.up, Br.code] at hc h3 ⊢ <;> omega
    rw [this]
    have : 0 ≤ below F a := by
      have := hmono (show FP.ninf ≤ a by simp [FP.le_def, FP.leb])
      simpa [below] using this
    rw [max_eq_left (by linarith)]
    simp

theorem pInterval_dirac (x : ℤ) {I : CS} (hI : LeftClosed I) : pInterval val (jumpCdf x) I
    = .ok (endMass (fun y => if FP.fin x < y then 1 else 0)
        (fun y b => if FP.fin x < y ∨ FP.fin x = y ∧ b = .inc then 1 else 0) I) := by
  have hle : I.lower ≤ I.upper := by
    rcases hI.2.2 with h | h
    · exact h.le
    · exact h.1.le
  have hd := C74_dirac val x I hle
  have hleft : FP.fin x < I.lower ∨ I.Mem (.fin x) ∨ ¬ (FP.fin x < I.upper ∨ FP.fin x = I.upper ∧ I.right = .inc) := by
    by_cases h1 : FP.fin x < I.lower
    · exact .inl h1
    · by_cases h2 : FP.fin x < I.upper ∨ FP.fin x = I.upper ∧ I.right = .inc
      · refine .inr (.inl ⟨?_, h2⟩)
        rcases hI.1 with ⟨h3, _⟩ | ⟨_, h3⟩
        · left; rw [h3]; simp [FP.lt_def, FP.leb]
        · rcases (not_lt.1 h1).lt_or_eq with h | h
          · exact .inl h
          · exact .inr ⟨h, h3⟩
      · exact .inr (.inr h2)
  unfold endMass
  dsimp only
  rcases hleft with h1 | h1 | h1
  · have hn : ¬ I.Mem (.fin x) := fun hm => absurd (mem_bounds hm).1 (not_le.2 h1)
    have := hd.2 hn
    rw [prob] at this
    rw [this, if_pos h1, max_eq_left]
    split <;> norm_num
  · have := hd.1 h1
    rw [prob] at this
    rw [this, if_pos h1.2, if_neg (not_lt.2 (mem_bounds h1).1)]
    norm_num
  · have hn : ¬ I.Mem (.fin x) := fun hm => h1 hm.2
    have := hd.2 hn
    rw [prob] at this
    rw [this, if_neg h1, max_eq_left]
    split <;> norm_num

/-- Every numeric distribution is given by its mass at lower and upper bounds. -/
theorem ok_ends {d : PF} (h : numOk val d) : ∃ A U, Ends A U ∧
    (∀ I, LeftClosed I → pInterval val d I = .ok (endMass A U I)) ∧
    ∀ I : CS, I.isempty = true → pInterval val d I = .ok 0 := by
  rcases h with ⟨x, rfl⟩ | ⟨lo, hi, F, h⟩
  · exact ⟨_, _, ends_dirac x, fun I hI => pInterval_dirac x hI, fun I hI => C74_empty val (d := impulse _) rfl hI⟩
  · exact ⟨_, _, ends_fit h, fun I hI => pInterval_fit h hI, fun I hI => C74_empty val h.dens hI⟩

variable {idx : ℚ → ℤ}

theorem numP_of {d : PF} {A : FP → ℚ} {U : FP → Br → ℚ} (hidx : ∀ n, idx (val n) = n)
    (h : ∀ I, LeftClosed I → pInterval val d I = .ok (endMass A U I)) {I : CS} (hI : LeftClosed I) (rnd : ℚ → ℤ) :
    (numOps val idx rnd).p d (.num (embI val I)) = .ok (endMass A U I) := by
  simp [numOps, numArg, toCS_emb hidx, prob, h I hI, bind, Except.bind]

theorem numP_empty {d : PF} (h : ∀ I : CS, I.isempty = true → pInterval val d I = .ok 0) (rnd : ℚ → ℤ) :
    (numOps val idx rnd).p d (.num riEmptyset) = .ok 0 := by
  have : (toCS idx riEmptyset).isempty = true := by
    simp [toCS, riEmptyset, toFP, CS.isempty, CS.isclosed, CS.itype, Br.code]
  simp [numOps, numArg, prob, h _ this, bind, Except.bind]

theorem ri_subset {c c' : RI} (hc : RIOK c) (h : ∀ x, RIMem c x → RIMem c' x) :
    c'.lower ≤ c.lower ∧ (c.upper < c'.upper ∨ c.upper = c'.upper ∧ (c.right = .inc → c'.right = .inc)) := by
  obtain ⟨h1, h2⟩ := hc
  have hlo : c.lower < c.upper ∨ c.lower = c.upper ∧ c.left = .inc ∧ c.right = .inc := by
    rcases h1.lt_or_eq with h | h
    · exact .inl h
    · exact .inr ⟨h, h2 h⟩
  refine ⟨?_, ?_⟩
  · by_contra hn
    rw [not_le] at hn
    rcases hlo with hlt | ⟨he, hl, hr⟩
    · obtain ⟨x, hx1, hx2⟩ := XQ.dense (lt_min hn hlt)
      have := (h x ⟨.inl hx1, .inl (hx2.trans_le (min_le_right _ _))⟩).1
      have h3 := hx2.trans_le (min_le_left _ _)
      rcases this with h4 | ⟨h4, _⟩
      · exact absurd (h3.trans h4) (lt_irrefl _)
      · rw [h4] at h3; exact absurd h3 (lt_irrefl _)
    · have := (h c.lower ⟨.inr ⟨rfl, hl⟩, .inr ⟨he, hr⟩⟩).1
      rcases this with h4 | ⟨h4, _⟩
      · exact absurd (hn.trans h4) (lt_irrefl _)
      · rw [h4] at hn; exact absurd hn (lt_irrefl _)
  · rcases lt_trichotomy c.upper c'.upper with h3 | h3 | h3
    · exact .inl h3
    · refine .inr ⟨h3, fun hr => ?_⟩
      have hm : RIMem c c.upper := by
        refine ⟨?_, .inr ⟨rfl, hr⟩⟩
        rcases hlo with h | ⟨h, hl, _⟩
        · exact .inl h
        · exact .inr ⟨h, hl⟩
      rcases (h _ hm).2 with h4 | ⟨_, h4⟩
      · rw [h3] at h4; exact absurd h4 (lt_irrefl _)
      · exact h4
    · exfalso
      rcases hlo with hlt | ⟨he, hl, hr⟩
      · obtain ⟨x, hx1, hx2⟩ := XQ.dense (max_lt h3 hlt)
        have := (h x ⟨.inl ((le_max_right _ _).trans_lt hx1), .inl hx2⟩).2
        have h5 := (le_max_left _ _).trans_lt hx1
        rcases this with h4 | ⟨h4, _⟩
        · exact absurd (h5.trans h4) (lt_irrefl _)
        · rw [h4] at h5; exact absurd h5 (lt_irrefl _)
      · have := (h c.lower ⟨.inr ⟨rfl, hl⟩, .inr ⟨he, hr⟩⟩).2
        rcases this with h4 | ⟨h4, _⟩
        · rw [he] at h4; exact absurd (h3.trans h4) (lt_irrefl _)
        · rw [he] at h4; rw [h4] at h3; exact absurd h3 (lt_irrefl _)

theorem LeftClosed.ok (hval : StrictMono val) {I : CS} (h : LeftClosed I) : RIOK (embI val I) := by
  obtain ⟨h1, h2, h3⟩ := h
  refine ⟨?_, ?_⟩
  · show emb val I.lower ≤ emb val I.upper
    rw [emb_le hval]
    rcases h3 with h | h
    · exact h.le
    · exact h.1.le
  · intro he
    have he' : I.lower = I.upper := (emb_inj hval).1 he
    show I.left = .inc ∧ I.right = .inc
    rcases h3 with h | h
    · rw [he'] at h; exact absurd h (lt_irrefl _)
    · refine ⟨?_, h.2⟩
      rcases h1 with ⟨h4, _⟩ | ⟨_, h4⟩
      · rcases h2 with ⟨h5, _⟩ | ⟨n, h5⟩
        · rw [h4, h5] at he'; cases he'
        · rw [h4, h5] at he'; cases he'
      · exact h4

theorem endMass_mono {A : FP → ℚ} {U : FP → Br → ℚ} (h : Ends A U) {I J : CS} (h1 : J.lower ≤ I.lower)
    (h2 : I.upper < J.upper ∨ I.upper = J.upper ∧ (I.right = .inc → J.right = .inc)) : endMass A U I ≤ endMass A U J := by
  have hA := h.A_mono h1
  have hU : U I.upper I.right ≤ U J.upper J.right := by
    rcases h2 with h2 | ⟨h2, h3⟩
    · exact h.U_mono _ _ _ _ h2
    · rw [h2]
      cases hr : I.right with
      | inc => rw [h3 hr]
      | exc => cases hr' : J.right with
        | inc => exact h.U_inc _ _
        | exc => exact le_rfl
  exact max_le_max le_rfl (by linarith)

theorem inter_empty_left {c : RI} : riInter riEmptyset c = riEmptyset := by
  unfold riInter
  by_cases h : riIntersects riEmptyset c = true
  · rw [h]
    simp only [Bool.not_true, Bool.false_eq_true, if_false]
    unfold riIntersects at h
    simp only [riEmptyset] at h
    split at h
    · cases h
    · split at h
      · cases h
      · rename_i hne
        rw [not_or, not_lt, not_lt] at hne
        split at h
        · cases h
        · rename_i hne2
          split at h
          · cases h
          · rename_i hne3
            have h1 : c.lower < .fin 0 := lt_of_le_of_ne hne.1 (fun he => hne3 ⟨he.symm, .inl trivial⟩)
            have h2 : .fin 0 < c.upper := lt_of_le_of_ne hne.2 (fun he => hne2 ⟨he, .inr trivial⟩)
            simp [riEmptyset, h1.le, h2.le, h1.ne, h2.ne', h1, h2]
  · have : riIntersects riEmptyset c = false := by simpa using h
    rw [this]; rfl

theorem inter_empty_right {c : RI} : riInter c riEmptyset = riEmptyset := by
  have : riIntersects c riEmptyset = false := by simp [riIntersects, riEmpty, riEmptyset]
  unfold riInter
  rw [this]; rfl

/-- Two intervals meet in the interval between the greater lower and the smaller upper bound, or not at all. -/
theorem inter_cases (hval : StrictMono val) {I J : CS} (hI : LeftClosed I) (hJ : LeftClosed J) :
    (riInter (embI val I) (embI val J) = riEmptyset ∧ ∀ A U, Ends A U →
      min (U I.upper I.right) (U J.upper J.right) ≤ max (A I.lower) (A J.lower)) ∨
    ∃ K, LeftClosed K ∧ riInter (embI val I) (embI val J) = embI val K ∧ K.lower = max I.lower J.lower ∧
      ∀ A U, Ends A U → U K.upper K.right = min (U I.upper I.right) (U J.upper J.right) := by
  have hoI := riEmpty_iff (hI.ok hval)
  have hoJ := riEmpty_iff (hJ.ok hval)
  by_cases hint : riIntersects (embI val I) (embI val J) = true
  · right
    refine ⟨⟨max I.lower J.lower, min I.upper J.upper,
      if J.lower = I.lower then Br.max I.left J.left else if I.lower > J.lower then I.left else J.left,
      if J.upper = I.upper then Br.max I.right J.right else if I.upper < J.upper then I.right else J.right⟩,
      ?_, ?_, rfl, ?_⟩
    · unfold riIntersects at hint
      rw [hoJ] at hint
      simp only [Bool.false_eq_true, if_false, embI, gt_iff_lt, emb_lt hval, emb_inj hval] at hint
      obtain ⟨i1, i2, i3⟩ := hI
      obtain ⟨j1, j2, j3⟩ := hJ
      refine ⟨?_, ?_, ?_⟩
      · dsimp only
        rcases lt_trichotomy I.lower J.lower with h | h | h
        · rw [max_eq_right h.le, if_neg h.ne', if_neg (not_lt.2 h.le)]; exact j1
        · rw [← h] at j1 ⊢
          rw [max_self, if_pos rfl]
          rcases i1 with ⟨e1, e2⟩ | ⟨⟨n, e1⟩, e2⟩ <;> rcases j1 with ⟨e3, e4⟩ | ⟨⟨m, e3⟩, e4⟩
          · exact .inl ⟨e1, by rw [e2, e4]; rfl⟩
          · rw [e1] at e3; cases e3
          · rw [e1] at e3; cases e3
          · exact .inr ⟨⟨n, e1⟩, by rw [e2, e4]; rfl⟩
        · rw [max_eq_left h.le, if_neg h.ne, if_pos h]; exact i1
      · dsimp only
        rcases lt_trichotomy I.upper J.upper with h | h | h
        · rw [min_eq_left h.le, if_neg h.ne', if_pos h]; exact i2
        · rw [← h] at j2 ⊢
          rw [min_self, if_pos rfl]
          rcases i2 with ⟨e1, e2⟩ | ⟨n, e1⟩ <;> rcases j2 with ⟨e3, e4⟩ | ⟨m, e3⟩
          · exact .inl ⟨e1, by rw [e2, e4]; rfl⟩
          · rw [e1] at e3; cases e3
          · rw [e1] at e3; cases e3
          · exact .inr ⟨n, e1⟩
        · rw [min_eq_right h.le, if_neg h.ne, if_neg (not_lt.2 h.le)]; exact j2
      · dsimp only
        have hb1 : J.lower ≤ I.upper ∧ I.lower ≤ J.upper := by
          by_contra hn
          rw [if_pos (by rw [not_and_or, not_le, not_le] at hn; exact hn)] at hint
          cases hint
        rw [if_neg (by rw [not_or, not_lt, not_lt]; exact hb1)] at hint
        have hb2 : ¬ (I.lower = J.upper ∧ (J.right = .exc ∨ I.left = .exc)) := by
          intro hc; rw [if_pos hc] at hint; cases hint
        rw [if_neg hb2] at hint
        have hb3 : ¬ (I.upper = J.lower ∧ (I.right = .exc ∨ J.left = .exc)) := by
          intro hc; rw [if_pos hc] at hint; cases hint
        have hx : ∀ b : Br, b ≠ .exc → b = .inc := fun b hb => by cases b <;> simp_all
        have g1 : J.lower < I.upper ∨ J.lower = I.upper ∧ I.right = .inc := by
          rcases hb1.1.lt_or_eq with h | h
          · exact .inl h
          · exact .inr ⟨h, hx _ (fun hr => hb3 ⟨h.symm, .inl hr⟩)⟩
        have g2 : I.lower < J.upper ∨ I.lower = J.upper ∧ J.right = .inc := by
          rcases hb1.2.lt_or_eq with h | h
          · exact .inl h
          · exact .inr ⟨h, hx _ (fun hr => hb2 ⟨h, .inl hr⟩)⟩
        have g : ∀ L, (L = I.lower ∨ L = J.lower) → (L < I.upper ∨ L = I.upper ∧ I.right = .inc) ∧
            (L < J.upper ∨ L = J.upper ∧ J.right = .inc) := by
          rintro L (rfl | rfl)
          · exact ⟨i3, g2⟩
          · exact ⟨g1, j3⟩
        obtain ⟨k1, k2⟩ := g (max I.lower J.lower) (max_choice _ _)
        rcases lt_trichotomy I.upper J.upper with h | h | h
        · rw [min_eq_left h.le, if_neg h.ne', if_pos h]; exact k1
        · rw [← h] at k2 ⊢
          rw [min_self, if_pos rfl]
          rcases k1 with k1 | ⟨k1, k3⟩
          · exact .inl k1
          · rcases k2 with k2 | ⟨k2, k4⟩
            · exact .inl k2
            · exact .inr ⟨k1, by rw [k3, k4]; rfl⟩
        · rw [min_eq_right h.le, if_neg h.ne, if_neg (not_lt.2 h.le)]; exact k2
    · unfold riInter
      rw [hint]
      simp only [Bool.not_true, Bool.false_eq_true, if_false, embI, emb_max hval, emb_min hval, emb_inj hval, gt_iff_lt, emb_lt hval]
    · intro A U h
      dsimp only
      rcases lt_trichotomy I.upper J.upper with h1 | h1 | h1
      · rw [min_eq_left h1.le, if_neg h1.ne', if_pos h1, min_eq_left (h.U_mono _ _ _ _ h1)]
      · rw [h1, min_self, if_pos rfl]
        have := h.U_inc J.upper .exc
        cases I.right <;> cases J.right <;> simp [Br.max, this, Br.code]
      · rw [min_eq_right h1.le, if_neg h1.ne, if_neg (not_lt.2 h1.le), min_eq_right (h.U_mono _ _ _ _ h1)]
  · left
    have hf : riIntersects (embI val I) (embI val J) = false := by simpa using hint
    refine ⟨by unfold riInter; rw [hf]; rfl, ?_⟩
    intro A U h
    unfold riIntersects at hf
    rw [hoJ] at hf
    simp only [Bool.false_eq_true, if_false, embI, gt_iff_lt, emb_lt hval, emb_inj hval] at hf
    have key : ∀ x y b, x < y → U x b ≤ A y := fun x y b hxy => (h.U_inc x b).trans (h.U_A x y hxy)
    by_cases c1 : I.upper < J.lower ∨ J.upper < I.lower
    · rcases c1 with c1 | c1
      · exact (min_le_left _ _).trans ((key _ _ _ c1).trans (le_max_right _ _))
      · exact (min_le_right _ _).trans ((key _ _ _ c1).trans (le_max_left _ _))
    · rw [if_neg c1] at hf
      have noL : ∀ I J : CS, LeftClosed I → LeftClosed J → I.lower = J.upper → I.left = .exc → False := by
        intro I J hI hJ h1 h2
        rcases hI.1 with ⟨e, _⟩ | ⟨_, e⟩
        · rcases hJ.2.1 with ⟨e', _⟩ | ⟨n, e'⟩ <;> rw [h1, e'] at e <;> cases e
        · rw [h2] at e; cases e
      by_cases c2 : I.lower = J.upper ∧ (J.right = .exc ∨ I.left = .exc)
      · have : J.right = .exc := by
          rcases c2.2 with h | h
          · exact h
          · exact (noL I J hI hJ c2.1 h).elim
        rw [this, ← c2.1]
        exact (min_le_right _ _).trans ((h.U_A' _).trans (le_max_left _ _))
      · rw [if_neg c2] at hf
        by_cases c3 : I.upper = J.lower ∧ (I.right = .exc ∨ J.left = .exc)
        · have : I.right = .exc := by
            rcases c3.2 with h | h
            · exact h
            · exact (noL J I hJ hI c3.1.symm h).elim
          rw [this, c3.1]
          exact (min_le_left _ _).trans ((h.U_A' _).trans (le_max_right _ _))
        · rw [if_neg c3] at hf
          cases hf

/-- What `_p` returns satisfies the laws of probabilities. -/
theorem num_laws (hval : StrictMono val) (hidx : ∀ n, idx (val n) = n) (rnd : ℚ → ℤ) :
    PLaws (numOps val idx rnd) (fun _ : Unit => numOk val) (fun _ => numFits val) (numP val idx) := by
  have hP : ∀ {d : PF} {A : FP → ℚ} {U : FP → Br → ℚ},
      (∀ I, LeftClosed I → pInterval val d I = .ok (endMass A U I)) → ∀ {I : CS}, LeftClosed I →
      numP val idx d (.num (embI val I)) = endMass A U I := by
    intro d A U h I hI
    unfold numP
    rw [numP_of hidx h hI]
  have hP0 : ∀ {d : PF}, (∀ I : CS, I.isempty = true → pInterval val d I = .ok 0) →
      numP val idx d (.num riEmptyset) = 0 := by
    intro d h
    unfold numP
    rw [numP_empty h]
  have hnn : ∀ (A : FP → ℚ) (U : FP → Br → ℚ) (I : CS), 0 ≤ endMass A U I := fun A U I => le_max_left _ _
  have hmemE : ∀ x, ¬ (Region.num riEmptyset).Mem x := by
    rintro x ⟨h1, h2⟩
    simp only [riEmptyset, and_false, or_false, reduceCtorEq] at h1 h2
    exact absurd (h1.trans h2) (lt_irrefl _)
  have hmemI : ∀ {I : CS}, LeftClosed I → ∃ x, (Region.num (embI val I)).Mem x := by
    intro I hI
    obtain ⟨n, h1, h2⟩ := hI.mem
    refine ⟨emb val (.fin n), ?_, ?_⟩
    · rcases h1 with h1 | ⟨h1, h3⟩
      · exact .inl ((emb_lt hval).2 h1)
      · exact .inr ⟨(emb_inj hval).2 h1, h3⟩
    · rcases h2 with h2 | ⟨h2, h3⟩
      · exact .inl ((emb_lt hval).2 h2)
      · exact .inr ⟨(emb_inj hval).2 h2, h3⟩
  have hmono : ∀ d r s, numOk val d → numFits val r → numFits val s → (∀ x, r.Mem x → s.Mem x) →
      numP val idx d r ≤ numP val idx d s := by
    intro d r s hd hr hs h
    obtain ⟨A, U, hE, h1, h2⟩ := ok_ends hd
    rcases hr with rfl | ⟨I, hI, rfl⟩
    · rw [hP0 h2]
      rcases hs with rfl | ⟨J, hJ, rfl⟩
      · rw [hP0 h2]
      · rw [hP h1 hJ]; exact hnn _ _ _
    · rcases hs with rfl | ⟨J, hJ, rfl⟩
      · obtain ⟨x, hx⟩ := hmemI hI
        exact absurd (h x hx) (hmemE x)
      · rw [hP h1 hI, hP h1 hJ]
        obtain ⟨h3, h4⟩ := ri_subset (hI.ok hval) h
        refine endMass_mono hE ((emb_le hval).1 h3) ?_
        rcases h4 with h4 | ⟨h4, h5⟩
        · exact .inl ((emb_lt hval).1 h4)
        · exact .inr ⟨(emb_inj hval).1 h4, h5⟩
  refine ⟨?_, ?_, ?_, ?_, ?_, ?_, ?_, ?_⟩
  · intro _ d r hd hr
    obtain ⟨A, U, hE, h1, h2⟩ := ok_ends hd
    rcases hr with rfl | ⟨I, hI, rfl⟩
    · rw [hP0 h2, numP_empty h2]
    · rw [hP h1 hI, numP_of hidx h1 hI]
  · intro _ d r s hd hr hs h
    exact le_antisymm (hmono d r s hd hr hs (fun x => (h x).1)) (hmono d s r hd hs hr (fun x => (h x).2))
  · intro _ d r hd hr
    obtain ⟨A, U, hE, h1, h2⟩ := ok_ends hd
    rcases hr with rfl | ⟨I, hI, rfl⟩
    · rw [hP0 h2]
    · rw [hP h1 hI]; exact hnn _ _ _
  · intro _ d r hd hr
    obtain ⟨A, U, hE, h1, h2⟩ := ok_ends hd
    rcases hr with rfl | ⟨I, hI, rfl⟩
    · rw [hP0 h2]; norm_num
    · rw [hP h1 hI]
      have := hE.U_le I.upper I.right
      have := hE.A_nonneg I.lower
      exact max_le (by norm_num) (by linarith)
  · intro _ d r s hd hr hs h
    exact hmono d r s hd hr hs h
  · intro _ d r hd hr h
    obtain ⟨A, U, hE, h1, h2⟩ := ok_ends hd
    rcases hr with rfl | ⟨I, hI, rfl⟩
    · exact hP0 h2
    · obtain ⟨x, hx⟩ := hmemI hI
      exact absurd hx (h x)
  · intro _ r s hr hs
    rcases hr with rfl | ⟨I, hI, rfl⟩
    · rcases hs with rfl | ⟨J, hJ, rfl⟩
      · left; show Region.num _ = _; rw [inter_empty_left]
      · left; show Region.num _ = _; rw [inter_empty_left]
    · rcases hs with rfl | ⟨J, hJ, rfl⟩
      · left; show Region.num _ = _; rw [inter_empty_right]
      · rcases inter_cases hval hI hJ with ⟨h, _⟩ | ⟨K, hK, h, _⟩
        · left; show Region.num _ = _; rw [h]
        · right; exact ⟨K, hK, by show Region.num _ = _; rw [h]⟩
  · intro _ d r s hd hr hs h1s
    obtain ⟨A, U, hE, h1, h2⟩ := ok_ends hd
    rcases hs with rfl | ⟨J, hJ, rfl⟩
    · rw [hP0 h2] at h1s; norm_num at h1s
    · rw [hP h1 hJ] at h1s
      have hUJ : U J.upper J.right = 1 ∧ A J.lower = 0 := by
        have e1 := hE.U_le J.upper J.right
        have e2 := hE.A_nonneg J.lower
        unfold endMass at h1s
        rcases max_choice 0 (U J.upper J.right - A J.lower) with h | h <;> rw [h] at h1s
        · norm_num at h1s
        · constructor <;> linarith
      rcases hr with rfl | ⟨I, hI, rfl⟩
      · show numP val idx d (.num (riInter riEmptyset _)) = _
        rw [inter_empty_left]
      · show numP val idx d (.num (riInter (embI val I) (embI val J))) = _
        have hmin : min (U I.upper I.right) (U J.upper J.right) = U I.upper I.right := by
          rw [hUJ.1]; exact min_eq_left (hE.U_le _ _)
        have hmax : max (A I.lower) (A J.lower) = A I.lower := by
          rw [hUJ.2]; exact max_eq_left (hE.A_nonneg _)
        rw [hP h1 hI]
        rcases inter_cases hval hI hJ with ⟨h, h'⟩ | ⟨K, hK, h, h3, h4⟩
        · have := h' A U hE
          rw [hmin, hmax] at this
          rw [h, hP0 h2]
          unfold endMass
          rw [max_eq_left (by linarith)]
        · rw [h, hP h1 hK]
          unfold endMass
          rw [h4 A U hE, hmin, h3, hE.A_mono.map_max, hmax]

end Verif.Trees
