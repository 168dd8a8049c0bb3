import Verif.Trees.MixLaws
import Verif.Numeric.CropSpan

/-! # Conditioning numeric distributions of leaves on intervals -/

namespace Verif.Trees

open Iv (FP CS Br NS)
open Vars (RI)
open Fun (PF)
open Num

variable {val : ℤ → ℚ} {idx : ℚ → ℤ}

/-- The floats of a leaf's rows and the interval of the evidence: conditions under which `_crop` conditions the
fitted distribution.  Either all rows have the same value, which is in the interval with the float below it; or the
interval ends with its upper bound, at most at the greatest value, it has at least three floats, and where it contains
values (other than the least) it contains the two floats below them, which are no values. -/
def CropOK (s : List ℤ) (I : CS) : Prop :=
  (∃ x, x ∈ s ∧ (∀ y ∈ s, y = x) ∧ I.Mem (.fin x) ∧ I.Mem (.fin (x - 1))) ∨
  ∃ lo hi b, lo ∈ s ∧ hi ∈ s ∧ (∀ x ∈ s, lo ≤ x ∧ x ≤ hi) ∧ I.upper = .fin b ∧ I.right = .inc ∧ b ≤ hi ∧ lo < b - 1 ∧
    I.Mem (.fin (b - 2)) ∧ (I.Mem (.fin (lo - 1)) → s.count lo = 1) ∧
    ∀ x ∈ s, x ≠ lo → I.Mem (.fin x) → I.Mem (.fin (x - 1)) → I.Mem (.fin (x - 2)) ∧ x - 1 ∉ s

/-- Masses in the conditional distribution. -/
theorem cut_mass {u s a B : ℚ} (h : a < B) :
    max 0 ((max (min u B) a - a) / (B - a) - (min (max s a) B - a) / (B - a)) = max 0 (min u B - max s a) / (B - a) := by
  have hD : 0 < B - a := by linarith
  rw [← sub_div]
  have : max (0 : ℚ) ((max (min u B) a - a - (min (max s a) B - a)) / (B - a))
      = max 0 (max (min u B) a - a - (min (max s a) B - a)) / (B - a) := by
    rw [← max_div_div_right hD.le, zero_div]
  rw [this]
  congr 1
  simp only [max_def, min_def]
  split_ifs <;> linarith

theorem num_crop_law {F G : ℤ → ℚ} {d d' : PF} {lo hi lo' hi' : ℤ} (hF : SpanCdf val d lo hi F)
    (hG : SpanCdf val d' lo' hi' G) (hG0 : G lo' = 0) {I : CS} {b : ℤ} (hI : LeftClosed I) (hu : I.upper = .fin b)
    (hr : I.right = .inc) (hlob : lo ≤ b) (hc : Num.Conditioned F I (below F I.lower) (F b) G)
    (hlo : I.lower < .fin lo → F lo = 0) (hlt : below F I.lower < F b) (J : CS) :
    endMass (below G) (fitU lo' G) J = max 0 (min (fitU lo F J.upper J.right) (fitU lo F I.upper I.right)
      - max (below F J.lower) (below F I.lower)) / endMass (below F) (fitU lo F) I := by
  have hmono := below_mono hF
  have hEF := ends_fit hF
  have hEG := ends_fit hG
  set a := below F I.lower with ha
  set B := F b with hB
  have hUI : fitU lo F I.upper I.right = B := by
    unfold fitU
    rw [hu, hr, if_pos]
    · rfl
    · rcases hlob.lt_or_eq with h | h
      · left; simpa [FP.lt_def, FP.leb] using h
      · right; exact ⟨by rw [h], rfl⟩
  have hB1 : B ≤ 1 := SpanCdf.le_one hF b
  have ha0 : 0 ≤ a := hEF.A_nonneg _
  have hD : 0 < B - a := by linarith
  have hmem : ∀ n, I.Mem (.fin n) ↔ I.lower ≤ .fin n ∧ n ≤ b := by
    intro n
    obtain ⟨x, y, l, r⟩ := I
    obtain ⟨h1, h2, h3⟩ := hI
    simp only at hu hr h1
    subst hu hr
    rcases h1 with ⟨rfl, rfl⟩ | ⟨⟨k, rfl⟩, rfl⟩ <;> simp [CS.Mem, FP.lt_def, FP.le_def, FP.leb] <;> omega
  have hbel : ∀ x, below G x = (min (max (below F x) a) B - a) / (B - a) := by
    intro x
    cases x with
    | ninf => simp only [below]; rw [max_eq_right ha0, min_eq_left hlt.le, sub_self, zero_div]
    | pinf =>
      simp only [below]
      rw [max_eq_left (by linarith), min_eq_right hB1, div_self hD.ne']
    | fin n =>
      show G n = (min (max (F n) a) B - a) / (B - a)
      by_cases h1 : I.lower ≤ .fin n
      · have h2 : a ≤ F n := hmono h1
        rcases le_or_gt n b with h3 | h3
        · rw [hc.inside n ((hmem n).2 ⟨h1, h3⟩), max_eq_left h2, min_eq_left (hF.mono h3)]
        · rw [hc.above n (by rw [hu]; simp) (fun m hm => ((hmem m).1 hm).2.trans h3.le), max_eq_left h2,
            min_eq_right (hF.mono h3.le), div_self hD.ne']
      · have h2 : F n ≤ a := hmono (not_le.1 h1).le
        rw [hc.below n (fun m hm => by
          have := (not_le.1 h1).trans_le ((hmem m).1 hm).1
          simpa [FP.lt_def, FP.leb] using this), max_eq_right h2, min_eq_left hlt.le, sub_self, zero_div]
  have hfit : ∀ x r, fitU lo' G x r = (max (min (fitU lo F x r) B) a - a) / (B - a) := by
    intro x r
    have h1 : fitU lo' G x r = below G x := by
      unfold fitU
      split
      · rfl
      · rename_i hn
        have hx : x ≤ .fin lo' := by
          by_contra h; exact hn (.inl (not_le.1 h))
        have : below G x ≤ G lo' := below_mono hG hx
        have h0 := hEG.A_nonneg x
        rw [show below G x = 0 from le_antisymm (by linarith) h0]
    have h2 : max (min (fitU lo F x r) B) a = max (min (below F x) B) a := by
      unfold fitU
      split
      · rfl
      · rename_i hn
        have hx : x ≤ .fin lo := by
          by_contra h; exact hn (.inl (not_le.1 h))
        have h3 : below F x ≤ a := by
          by_cases h4 : I.lower < .fin lo
          · have : below F x ≤ F lo := hmono hx
            rw [hlo h4] at this
            linarith
          · exact (hmono hx).trans (hmono (not_lt.1 h4))
        rw [max_eq_right ((min_le_left _ _).trans h3), max_eq_right ((min_le_left _ _).trans ha0)]
    rw [h1, hbel, h2, min_max_distrib_right, min_eq_left hlt.le]
  have hI' : endMass (below F) (fitU lo F) I = B - a := by
    unfold endMass
    rw [hUI]
    exact max_eq_right hD.le
  rw [hI', hUI]
  unfold endMass
  rw [hfit, hbel]
  exact cut_mass hlt

/-- Conditioning the fitted distribution of a numeric variable on an interval. -/
theorem num_crop (hval : StrictMono val) (hidx : ∀ n, idx (val n) = n) (rnd : ℚ → ℤ) {eps : ℚ} {s : List ℤ} {d : PF}
    (hfit : Num.fit val eps s = .ok d) {I : CS} (hI : LeftClosed I) (hc : CropOK s I) :
    ∃ d', (numOps val idx rnd).crop d (.num (embI val I)) = .ok d' ∧ numOkM val d' ∧
      ∀ S, numFits val S → numP val idx d' S
        = numP val idx d (S.inter (.num (embI val I))) / numP val idx d (.num (embI val I)) := by
  have hload : loadBuffer s none none = .ok s := by simp [loadBuffer]
  have hP : ∀ {d : PF} {A : FP → ℚ} {U : FP → Br → ℚ},
      (∀ I, LeftClosed I → pInterval val d I = .ok (endMass A U I)) → ∀ {I : CS}, LeftClosed I →
      numP val idx d (.num (embI val I)) = endMass A U I := by
    intro d A U h I hI
    unfold numP
    rw [numP_of hidx h hI]
  have hP0 : ∀ {d : PF}, numOk val d → numP val idx d (.num riEmptyset) = 0 := by
    intro d h
    obtain ⟨A, U, -, -, h2⟩ := ok_ends h
    unfold numP
    rw [numP_empty h2]
  have hcrop : ∀ {d' : PF}, I.size ≠ some 1 → crop val d I = .ok d' →
      (numOps val idx rnd).crop d (.num (embI val I)) = .ok d' := by
    intro d' h1 h2
    simp only [numOps, numArg, toCS_emb hidx, cropTo, cropInterval', if_neg h1, h2, bind, Except.bind, pure, Except.pure]
  have hsize : ∀ n m, n ≠ m → I.Mem (.fin n) → I.Mem (.fin m) → I.size ≠ some 1 := by
    intro n m hnm h1 h2
    obtain ⟨x, y, l, r⟩ := I
    obtain ⟨h3, h4, h5⟩ := hI
    simp only at h3 h4 h5
    rcases h3 with ⟨rfl, rfl⟩ | ⟨⟨k, rfl⟩, rfl⟩ <;> rcases h4 with ⟨rfl, rfl⟩ | ⟨k', rfl⟩ <;> (try cases r) <;>
      simp [CS.Mem, CS.size, CS.isempty, CS.isclosed, CS.itype, Br.code, FP.lt_def, FP.le_def, FP.leb, FP.up] at h1 h2 h5 ⊢ <;>
      (try split_ifs) <;> (try simp) <;> omega
  rcases hc with ⟨x, hx, hall, h1, h2⟩ | ⟨lo, hi, b, hlo, hhi, hb, hu, hr, hbhi, hlob, hm2, hdup, hnear⟩
  · have hd := fit_single (val := val) (eps := eps) hload hx hall
    rw [hfit] at hd
    injection hd with hd
    subst hd
    obtain ⟨p, h3, h4, h5⟩ := fit_mergeable hval (eps := eps) hload (List.ne_nil_of_mem hx)
    rw [hfit] at h3
    injection h3 with h3
    subst h3
    have hok : numOk val (jumpCdf x) := .inl ⟨x, rfl⟩
    refine ⟨_, hcrop (hsize _ _ (by omega) h1 h2) (crop_jump h1 h2), ⟨hok, h4, h5⟩, fun S hS => ?_⟩
    have hone : numP val idx (jumpCdf x) (.num (embI val I)) = 1 := by
      rw [hP (fun I hI => pInterval_dirac x hI) hI]
      unfold endMass
      simp only
      rw [if_pos h1.2, if_neg (not_lt.2 (mem_bounds h1).1)]
      norm_num
    rw [hone, div_one]
    exact ((num_laws hval hidx rnd).sure () _ _ _ hok hS (.inr ⟨I, hI, rfl⟩) hone).symm
  · have hlt : lo < hi := by omega
    have hmin : ∀ x ∈ s, lo ≤ x := fun x hx => (hb x hx).1
    have hmax : ∀ x ∈ s, x ≤ hi := fun x hx => (hb x hx).2
    obtain ⟨pts, p, F, hp, hshape, heval, hthr, hrise, hlen, hhead, hlast, hpts⟩ :=
      fit_spec hval (eps := eps) hload hlo hhi hlt hmin hmax
    rw [hfit] at hp
    injection hp with hp
    subst hp
    obtain ⟨p, F', hp, heval', hF0, hspan⟩ := fitCdf_of hval (eps := eps) hload hlo hhi hlt hmin hmax
    rw [hfit] at hp
    injection hp with hp
    subst hp
    have hFF : F' = F := by
      funext n
      have h1 := heval n
      rw [heval' n] at h1
      simpa using h1
    subst hFF
    have hF := hspan.span
    have h2 := length_two hlo hhi (by omega)
    have hstrict : ∀ {x y}, lo ≤ x → x < y → y ≤ hi → F' x < F' y := fun hx hxy hy =>
      hthr.strict hval hrise hhead hlast (rank_nonneg hlo h2) hlen hx hxy hy
    have hmem : ∀ n, I.Mem (.fin n) ↔ I.lower ≤ .fin n ∧ n ≤ b := by
      intro n
      obtain ⟨x, y, l, r⟩ := I
      obtain ⟨h1, h2, h3⟩ := hI
      simp only at hu hr h1
      subst hu hr
      rcases h1 with ⟨rfl, rfl⟩ | ⟨⟨k, rfl⟩, rfl⟩ <;> simp [CS.Mem, FP.lt_def, FP.le_def, FP.leb] <;> omega
    have hl2 := ((hmem _).1 hm2).1
    have hle : ∀ n, b - 2 ≤ n → I.lower ≤ .fin n := fun n hn => hl2.trans (by simp [FP.le_def, FP.leb]; omega)
    have hm1 : I.Mem (.fin (b - 1)) := (hmem _).2 ⟨hle _ (by omega), by omega⟩
    have hm0 : I.Mem (.fin b) := (hmem _).2 ⟨hle _ (by omega), le_rfl⟩
    have hub : I.uppermost = .fin b := uppermost_of_greatest hm0 (fun n hn => ((hmem n).1 hn).2)
    have hbelow : I.Mem (.fin (lo - 1)) → rank s lo = 0 := fun h => rank_single hmin (hdup h)
    have hlow : LowEnd F' I (below F' I.lower) := by
      rcases hI.1 with ⟨h, -⟩ | ⟨⟨k, h⟩, -⟩
      · exact .inl ⟨h, by rw [h]; rfl⟩
      · refine .inr ⟨k, (hmem k).2 ⟨by rw [h], ?_⟩, fun n hn => ?_, by rw [h]; rfl⟩
        · have := hle b (by omega)
          rw [h] at this
          simpa [FP.le_def, FP.leb] using this
        · have := ((hmem n).1 hn).1
          rw [h] at this
          simpa [FP.le_def, FP.leb] using this
    have hlt1 : below F' I.lower < F' (b - 1) := by
      have hpos := hstrict (x := lo) (y := b - 1) le_rfl hlob (by omega)
      rcases hI.1 with ⟨h, -⟩ | ⟨⟨k, h⟩, -⟩
      · rw [h]
        show (0 : ℚ) < _
        exact (SpanCdf.nonneg hF lo).trans_lt hpos
      · rw [h]
        show F' k < _
        rw [h] at hl2
        have hk : k ≤ b - 2 := by simpa [FP.le_def, FP.leb] using hl2
        rcases le_or_gt lo k with h3 | h3
        · exact hstrict h3 (by omega) (by omega)
        · exact (hF.mono h3.le).trans_lt hpos
    obtain ⟨p', lo', G, h3, h4, h5, h6, h7, h8⟩ := crop_span hval hshape heval hrise hlen hhead hlast hF.mono hub
      (by rw [hu]; simp) hbhi hbelow (by
        intro q hq hne h1 h3
        obtain ⟨h4, h5⟩ := hnear q.1 (hpts q hq).1 hne h1 h3
        exact ⟨h4, fun t ht e => h5 (by rw [← e]; exact (hpts t ht).1)⟩) hlow hm1 hlt1
    have hok' : numOk val p' := .inr ⟨_, _, _, h4⟩
    have hok : numOk val d := .inr ⟨_, _, _, hF⟩
    refine ⟨p', hcrop (hsize _ _ (by omega) hm0 hm1) h3, ⟨hok', h5, h6⟩, fun S hS => ?_⟩
    rcases hS with rfl | ⟨J, hJ, rfl⟩
    · show _ = numP val idx d (.num (riInter riEmptyset _)) / _
      rw [inter_empty_left, hP0 hok, hP0 hok', zero_div]
    · show _ = numP val idx d (.num (riInter (embI val J) (embI val I))) / _
      rw [hP (fun I hI => pInterval_fit h4 hI) hJ, hP (fun I hI => pInterval_fit hF hI) hI]
      rw [num_crop_law hF h4 h8 hI hu hr (by omega) h7 (by
        intro h
        rw [hF0]
        refine hbelow ((hmem _).2 ⟨?_, by omega⟩)
        rcases hI.1 with ⟨e, -⟩ | ⟨⟨k, e⟩, -⟩
        · rw [e]; simp [FP.le_def, FP.leb]
        · rw [e] at h ⊢
          simp [FP.lt_def, FP.le_def, FP.leb] at h ⊢
          omega) (hlt1.trans_le (hF.mono (by omega))) J]
      congr 1
      rcases inter_cases hval hJ hI with ⟨h, h'⟩ | ⟨K, hK, h, h9, h10⟩
      · have := h' _ _ (ends_fit hF)
        rw [h, hP0 hok, max_eq_left (by linarith)]
      · rw [h, hP (fun I hI => pInterval_fit hF hI) hK]
        unfold endMass
        rw [h10 _ _ (ends_fit hF), h9, (ends_fit hF).A_mono.map_max]

end Verif.Trees
