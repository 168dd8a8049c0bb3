import Verif.Numeric.Json
import Verif.Numeric.QueryLemmas3

/-! # Functions that can be stored -/

namespace Verif.Num

open Iv Iv.FP Fun

/-- A piece whose function is constant or linear and whose interval can be constructed. -/
def Storable (s : CS × Fn) : Prop :=
  s.1.lower ≤ s.1.upper ∧ ((∃ v, s.2 = .const v) ∨ ∃ m c, s.2 = .lin m c)

theorem fn_json {f : Fn} (h : (∃ v, f = .const v) ∨ ∃ m c, f = .lin m c) :
    ∃ d, fnToJson f = .ok d ∧ fnFromJson d = .ok f := by
  rcases h with ⟨v, rfl⟩ | ⟨m, c, rfl⟩
  · exact ⟨_, rfl, rfl⟩
  · exact ⟨_, rfl, rfl⟩

theorem cs_json {I : CS} (h : I.lower ≤ I.upper) : CS.fromJson I.toJson = .ok I := by
  have : CS.mk? I.lower I.upper I.left I.right = .ok I := by
    unfold CS.mk?
    rw [if_neg (not_lt.2 h)]
  simpa [CS.fromJson, CS.toJson, List.lookup, bind, Except.bind] using this

theorem simple_cases {f : Fn} (h : Simple f) : (∃ v, f = .const v) ∨ ∃ m c, f = .lin m c := by
  rcases f with _ | v | ⟨m, c⟩ | ⟨a, b, c⟩
  · cases h
  · exact .inl ⟨_, rfl⟩
  · exact .inr ⟨_, _, rfl⟩
  · cases h

theorem tile_storable : ∀ {L : List (ℤ × Fn)} {lo : FP} {f : Fn}, Knots L → (∀ s ∈ L, Simple s.2) → Simple f →
    (∀ s ∈ L, lo ≤ fin s.1) → ∀ s ∈ tile lo f L pinf, Storable s
  | [], lo, f, _, _, hf, _, s, hs => by
    simp only [tile, List.mem_singleton] at hs
    subst hs
    refine ⟨?_, simple_cases hf⟩
    cases lo <;> simp [FP.le_def, leb]
  | (k, g) :: r, lo, f, hk, hL, hf, hlo, s, hs => by
    simp only [tile, List.mem_cons] at hs
    rcases hs with rfl | hs
    · exact ⟨hlo (k, g) (by simp), simple_cases hf⟩
    · have hk' := List.pairwise_cons.1 hk
      refine tile_storable hk'.2 (fun t ht => hL t (by simp [ht])) (hL (k, g) (by simp)) ?_ s hs
      intro t ht
      have := hk'.1 t ht
      simp only [FP.le_def, leb, decide_eq_true_eq]
      omega

theorem exists_least : ∀ {l : List ℤ}, l ≠ [] → ∃ m ∈ l, ∀ x ∈ l, m ≤ x
  | [], h => absurd rfl h
  | [a], _ => ⟨a, by simp, by simp⟩
  | a :: b :: r, _ => by
    obtain ⟨m, h1, h2⟩ := exists_least (l := b :: r) (by simp)
    by_cases h : a ≤ m
    · refine ⟨a, by simp, fun x hx => ?_⟩
      rcases List.mem_cons.1 hx with rfl | hx
      · exact le_rfl
      · exact h.trans (h2 x hx)
    · refine ⟨m, List.mem_cons_of_mem _ h1, fun x hx => ?_⟩
      rcases List.mem_cons.1 hx with rfl | hx
      · omega
      · exact h2 x hx

theorem exists_greatest {l : List ℤ} (h : l ≠ []) : ∃ m ∈ l, ∀ x ∈ l, x ≤ m := by
  obtain ⟨m, h1, h2⟩ := exists_least (l := l.map (fun x => -x)) (by simpa using h)
  obtain ⟨y, hy, rfl⟩ := List.mem_map.1 h1
  exact ⟨y, hy, fun x hx => by have := h2 (-x) (List.mem_map.2 ⟨x, hx, rfl⟩); omega⟩

theorem fit_storable {val : ℤ → ℚ} (hval : StrictMono val) {eps : ℚ} {data s : List ℤ} {l r : Option ℤ}
    (hs : loadBuffer data l r = .ok s) (hne : s ≠ []) :
    ∃ p, fit val eps data l r = .ok p ∧ ∀ t ∈ p, Storable t := by
  obtain ⟨lo, hlo, hmin⟩ := exists_least hne
  obtain ⟨hi, hhi, hmax⟩ := exists_greatest hne
  rcases (hmin hi hhi).lt_or_eq with hlt | rfl
  · obtain ⟨pts, p, F, hp, hp', -, -, hrise, -, -, -, hpts⟩ := fit_spec hval (eps := eps) hs hlo hhi hlt hmin hmax
    refine ⟨p, hp, ?_⟩
    rw [hp']
    refine tile_storable ?_ ?_ (simple_const _) (fun s _ => by simp [FP.le_def, leb])
    · refine List.pairwise_append.2 ⟨segs_knots hrise, by simp, ?_⟩
      intro a ha b hb
      simp only [List.mem_singleton] at hb
      subst hb
      obtain ⟨q, hq, hq'⟩ := segs_mem ha
      have := hmax _ (hpts q (List.mem_of_mem_dropLast hq)).1
      show a.1 < hi + 1
      omega
    · intro a ha
      rcases List.mem_append.1 ha with ha | ha
      · exact (segs_slope hval hrise a ha).2
      · simp only [List.mem_singleton] at ha
        subst ha
        exact simple_const _
  · refine ⟨_, fit_single (eps := eps) hs hlo (fun y hy => le_antisymm (hmax y hy) (hmin y hy)), ?_⟩
    have : jumpCdf lo = tile ninf (.const 0) [(lo, .const 1)] pinf := rfl
    rw [this]
    exact tile_storable (by simp [Knots]) (by simp [simple_const]) (simple_const _) (by simp [FP.le_def, leb])

end Verif.Num
