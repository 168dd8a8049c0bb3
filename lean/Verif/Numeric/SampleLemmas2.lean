import Verif.Numeric.SampleLemmas
import Verif.Numeric.Props5

/-!
# Samples from fitted distributions lie in their range
-/

namespace Verif.Num

open Iv Iv.FP Fun

theorem sample_range {val : ℤ → ℚ} (hval : StrictMono val) {eps : ℚ} {data : List ℤ} {p : PF}
    (hp : fit val eps data = .ok p) {lo hi : ℤ} (hlo : lo ∈ data) (hhi : hi ∈ data) (hall : ∀ x ∈ data, lo ≤ x ∧ x ≤ hi)
    {w : ℕ × ℚ} (hw0 : 0 ≤ w.2) (hw1 : w.2 ≤ 1) {out : List ℚ} (hs : sample' val p [w] = .ok out) :
    ∀ x ∈ out, val lo ≤ x ∧ x ≤ val hi := by
  have hload : loadBuffer data none none = .ok (sample data none none) := loadBuffer_ok (by simp) (by simp)
  have hsame : ∀ x, x ∈ sample data none none ↔ x ∈ data := by
    intro x
    simp [sample]
  rcases lt_or_eq_of_le (hall lo hlo).2 with hlt | heq
  · obtain ⟨pts, p', F, hp', htile, -, -, hrise, hlen, hhead, hlast, hpts⟩ :=
      fit_spec hval (eps := eps) hload ((hsame lo).2 hlo) ((hsame hi).2 hhi) hlt
        (fun x hx => (hall x ((hsame x).1 hx)).1) (fun x hx => (hall x ((hsame x).1 hx)).2)
    rw [hp] at hp'
    cases hp'
    obtain ⟨a, b, r, rfl⟩ : ∃ a b r, pts = a :: b :: r := by
      match pts, hlen with
      | a :: b :: r, _ => exact ⟨a, b, r, rfl⟩
    have hinner : (p.drop 1).dropLast = tile (fin a.1) (lineOf val a b) (segs val (b :: r)) (fin (hi + 1)) := by
      rw [htile, ← tile_inner (z := hi + 1) (h := .const 1) (v := pinf)]
      simp only [segs, List.cons_append, tile, List.drop_succ_cons, List.drop_zero]
    have hinl : (p.drop 1).dropLast.length = r.length + 1 := by
      rw [hinner, tile_length]
      have : ∀ (b : ℤ × ℚ) (r : List (ℤ × ℚ)), (segs val (b :: r)).length = r.length := by
        intro b r
        induction r generalizing b with
        | nil => rfl
        | cons c r ih => simp only [segs, List.length_cons, ih]
      rw [this]
    have hlen3 : p.length ≠ 2 := by rw [htile, tile_length]; simp [segs]
    have hdraw : ∀ x, drawFrom val p w.1 w.2 = .ok x → val lo ≤ x ∧ x ≤ val hi := by
      intro v hv
      unfold drawFrom at hv
      cases hg : (p.drop 1).dropLast[w.1]? with
      | none => rw [hg] at hv; cases hv
      | some s =>
        have hi' : w.1 < r.length + 1 := by
          rw [← hinl]; exact (List.getElem?_eq_some_iff.1 hg).1
        obtain ⟨x, hx⟩ : ∃ x, (a :: b :: r)[w.1]? = some x := ⟨_, List.getElem?_eq_getElem (by simp; omega)⟩
        obtain ⟨y, hy⟩ : ∃ y, (a :: b :: r)[w.1 + 1]? = some y := ⟨_, List.getElem?_eq_getElem (by simp; omega)⟩
        have hxy := (rising_get hrise hx hy).1
        have hxl := (hall _ ((hsame _).1 (hpts _ (List.mem_of_getElem? hx)).1)).1
        have hyh := (hall _ ((hsame _).1 (hpts _ (List.mem_of_getElem? hy)).1)).2
        have h1 := piece_get (val := val) (e := hi + 1) hx hy
        rw [← hinner] at h1
        rw [h1] at hv
        set u := (if w.1 = r.length then hi + 1 else y.1) with hu
        have e : (.ok (val x.1 + w.2 * (val (u - 1) - val x.1)) : Except Err ℚ) = .ok v := by
          simpa [CS.lowermost, CS.uppermost, FP.dn] using hv
        have e' := Except.ok.inj e
        have hw1' : x.1 ≤ u - 1 := by rw [hu]; split_ifs <;> omega
        have hw2' : u - 1 ≤ hi := by rw [hu]; split_ifs <;> omega
        have m1 := hval.monotone hw1'
        have m2 := hval.monotone hw2'
        have m3 := hval.monotone hxl
        rw [← e']
        constructor <;> nlinarith
    intro x hx
    unfold sample' at hs
    split at hs
    · simp at hlen3
    · simp only [bind, Except.bind] at hs
      cases h1 : pieceProbs val p with
      | error e => rw [h1] at hs; cases hs
      | ok ps =>
        rw [h1] at hs
        simp only at hs
        cases h2 : choiceCheck ps with
        | error e => rw [h2] at hs; cases hs
        | ok u =>
          rw [h2] at hs
          simp only at hs
          split_ifs at hs
          simp only [List.mapM_cons, List.mapM_nil, bind, Except.bind, pure, Except.pure] at hs
          cases h3 : drawFrom val p w.1 w.2 with
          | error e => rw [h3] at hs; cases hs
          | ok y =>
            rw [h3] at hs
            have := Except.ok.inj hs
            subst this
            simp only [List.mem_singleton] at hx
            subst hx
            exact hdraw _ h3
  · subst heq
    have h1 := fit_single (val := val) (eps := eps) hload ((hsame lo).2 hlo) (fun y hy => by
      have := hall y ((hsame y).1 hy)
      omega)
    rw [hp] at h1
    cases h1
    intro x hx
    have h2 : sample' val (jumpCdf lo) [w] = .ok [val lo] := rfl
    rw [h2] at hs
    cases hs
    simp only [List.mem_singleton] at hx
    subst hx
    exact ⟨le_refl _, le_refl _⟩

end Verif.Num
