import Verif.Functions.ApproxLemmas9

/-!
# C101: approximations of piecewise functions

`val n` is the number of the `n`-th float, `rnd q` a float nearest to `q`; `pick` is the position of the item that the heap
returns, which may be any.
-/

namespace Verif.Fun

open Iv Iv.FP MeasureTheory

namespace PF

variable {val : ℤ → ℚ} {rnd : ℚ → ℤ} {pick : List (Fn.Fl × ℕ) → ℕ} {p : PF} {K : List ℤ} {v0 vl : ℚ} {emax : Option ℚ}
  {k : Option ℕ}

/-! ## Constants -/

/-- The approximation of a step function by constants.  Its knots are some of those of the function, among them the first
and the last one.  Every piece keeps its value or has the mean of the pieces it replaces.  Without a maximal error there are
as many pieces as asked for, and never fewer.  With a maximal error, every replacement deviates by at most this much on
average.  Missing: functions in which two means are equal (`C101_violated_shift`), that the area is the same
(`C101_violated_area`), functions with gaps (`C101_violated_gap`). -/
theorem C101_constant_partial (hv : StrictMono val) (hr : Nearest val rnd) (hK : K.Pairwise (· < ·))
    (hp : Framed (fun _ _ f => ∃ v, f = .const v) (.const v0) (.const vl) K p) (hg : Generic val p v0 K)
    (hpick : ∀ l, l ≠ [] → pick l < l.length) (hk : ∀ m, k = some m → 3 ≤ m) :
    ∃ r ks, approximate val rnd pick .constant p emax k = .ok r ∧ ks.Sublist K ∧ ks.head? = K.head? ∧
      ks.getLast? = K.getLast? ∧
      Framed (fun a b f => f = .const (meanOf val p a b)) (.const v0) (.const vl) ks r ∧
      (emax = none → r.length = min p.length (k.getD 3)) ∧ min p.length (k.getD 3) ≤ r.length ∧
      ∀ m, emax = some m → ks.IsChain (fun a b => (∃ P Q, K = P ++ a :: b :: Q) ∨
        ∫ x in Set.Ico (val a : ℝ) (val b), |PF.real val p x - meanOf val p a b| ≤ m * (val (b - 1) - val a)) := by
  have hpm := mean_framed (val := val) hp hK
  obtain ⟨r, ks, h1, h2, h3, h4, h5, h6, h7⟩ := approximate_spec (mean_theory hv hr hp hK hg) hK hpm hpick hk (emax := emax)
  refine ⟨r, ks, h1, h2, h3.1, h3.2, ?_, h6, h7, ?_⟩
  · obtain ⟨a, z, bs, k1, k2, k3, k4⟩ := h5
    exact ⟨a, z, bs, k1, k2, k3.imp (fun _ _ _ h => h.1), k4⟩
  · rintro m rfl
    have hs : ks.Pairwise (· < ·) := hK.sublist h2
    have hlt : ks.IsChain (· < ·) := hs.isChain
    rw [List.isChain_iff_getElem] at h4 hlt ⊢
    intro i hi
    rcases h4 i hi with h | ⟨e, he, hm⟩
    · exact .inl h
    · right
      unfold MeanEr at he
      rw [← he]
      have hle : val ks[i] ≤ val (ks[i + 1] - 1) := hv.monotone (by have := hlt i hi; omega)
      have h1 : e * (val (ks[i + 1] - 1) - val ks[i]) ≤ m * (val (ks[i + 1] - 1) - val ks[i]) :=
        mul_le_mul_of_nonneg_right (hm m rfl) (by linarith)
      exact_mod_cast h1

/-- For the examples: the position of the first item with the least error. -/
def pickLeast (l : List (Fn.Fl × ℕ)) : ℕ :=
  let key : Fn.Fl → ℚ := fun e => match e with
    | some (.fin q) => q
    | _ => 0
  (List.range l.length).foldl (fun b j => if key (l.getD j (none, 0)).1 < key (l.getD b (none, 0)).1 then j else b) 0

theorem pickLeast_lt (l : List (Fn.Fl × ℕ)) (h : l ≠ []) : pickLeast l < l.length := by
  have h0 : 0 < l.length := List.length_pos_iff.2 h
  unfold pickLeast
  simp only
  have key : ∀ (js : List ℕ) (b : ℕ), b < l.length → (∀ j ∈ js, j < l.length) →
      ∀ c : ℕ → ℕ → Prop, ∀ [∀ x y, Decidable (c x y)], js.foldl (fun b j => if c j b then j else b) b < l.length := by
    intro js
    induction js with
    | nil => intro b hb _ c _; exact hb
    | cons j js ih =>
      intro b hb hj c _
      rw [List.foldl_cons]
      apply ih
      · by_cases hc : c j b
        · rw [if_pos hc]; exact hj j (by simp)
        · rw [if_neg hc]; exact hb
      · exact fun x hx => hj x (List.mem_cons_of_mem _ hx)
  exact key _ 0 h0 (fun j hj => List.mem_range.1 hj) (fun j b => _ < _)

/-- For the examples: a step function with knots at 0, 10, 20, 30 and 40. -/
abbrev steps4 : PF := [(firstI 0, .const 0), (co 0 10, .const 1), (co 10 20, .const 2), (co 20 30, .const 6),
  (co 30 40, .const 4), (lastI 40, .const 0)]

example : Framed (fun _ _ f => ∃ v, f = .const v) (.const 0) (.const 0) [0, 10, 20, 30, 40] steps4 :=
  ⟨0, 40, _, rfl, rfl, .cons ⟨1, rfl⟩ (.cons ⟨2, rfl⟩ (.cons ⟨6, rfl⟩ (.cons ⟨4, rfl⟩ (.one 40)))), rfl⟩

example : [0, 10, 20, 30, 40].Pairwise (fun a b : ℤ => a < b) ∧ Generic ival steps4 0 [0, 10, 20, 30, 40] ∧ StrictMono ival ∧
    Nearest ival irnd ∧ approximate ival irnd pickLeast .constant steps4 none (some 4) =
      .ok [(firstI 0, .const 0), (co 0 20, .const (27 / 19)), (co 20 40, .const (90 / 19)), (lastI 40, .const 0)] :=
  ⟨by decide, by decide +kernel, ival_strictMono, irnd_nearest, by decide +kernel⟩

/-- With a maximal error of two thirds only the first two pieces are replaced. -/
example : approximate ival irnd pickLeast .constant steps4 (some (2 / 3)) none =
    .ok [(firstI 0, .const 0), (co 0 20, .const (27 / 19)), (co 20 30, .const 6), (co 30 40, .const 4),
      (lastI 40, .const 0)] := by decide +kernel

theorem blocks_unique {F : ℤ → ℤ → Fn} {ks : List ℤ} {bs bs' : PF} (h : Blocks (fun a b f => f = F a b) ks bs)
    (h' : Blocks (fun a b f => f = F a b) ks bs') : bs = bs' := by
  induction h generalizing bs' with
  | one a => cases h'; rfl
  | cons h1 _ ih =>
    cases h' with
    | cons h3 h4 => rw [h1, h3, ih h4]

/-- A function that has no more pieces than asked for is returned as it is. -/
theorem C101_enough_partial (hv : StrictMono val) (hr : Nearest val rnd) (hK : K.Pairwise (· < ·))
    (hp : Framed (fun _ _ f => ∃ v, f = .const v) (.const v0) (.const vl) K p) (hg : Generic val p v0 K)
    (hpick : ∀ l, l ≠ [] → pick l < l.length) {m : ℕ} (hk : 3 ≤ m) (hm : p.length ≤ m) :
    approximate val rnd pick .constant p emax (some m) = .ok p := by
  obtain ⟨r, ks, h1, h2, -, -, h5, -, h7, -⟩ := C101_constant_partial (emax := emax) (k := some m) hv hr hK hp hg hpick
    (by rintro _ ⟨⟩; exact hk)
  have hpl := hp.length
  have hrl := h5.length
  simp only [Option.getD_some, Nat.min_eq_left hm] at h7
  have hks : ks = K := h2.eq_of_length (le_antisymm h2.length_le (by omega))
  subst hks
  have hpm := mean_framed (val := val) hp hK
  rw [h1]
  obtain ⟨a, z, bs, e1, e2, e3, rfl⟩ := h5
  obtain ⟨a', z', bs', e1', e2', e3', e4⟩ := hpm
  rw [e1] at e1'
  rw [e2] at e2'
  cases e1'
  cases e2'
  have := blocks_unique (F := fun a b => .const (meanOf val p a b)) e3 (e3'.imp (fun _ _ _ h => h.1))
  rw [e4, this]

example : steps4.length = 6 ∧ approximate ival irnd pickLeast .constant steps4 none (some 7) = .ok steps4 :=
  ⟨rfl, by decide +kernel⟩

/-! ## Lines -/

/-- The approximation of a continuous piecewise linear function by lines: its knots are some of those of the function, among
them the first and the last one, and between two knots it is the line through the points of the function.  Without a maximal
error there are as many pieces as asked for, and never fewer.  Missing: functions in which two of these lines are the same
(`C101_violated_shift_line`), what the maximal error means. -/
theorem C101_lines_partial {Y : ℤ → ℚ} (hv : StrictMono val) (hr : Nearest val rnd) (hK : K.Pairwise (· < ·))
    (hp : Framed (Chord val Y) (.const v0) (.const vl) K p) (hg : GenericLines val Y v0 K)
    (hpick : ∀ l, l ≠ [] → pick l < l.length) (hk : ∀ m, k = some m → 3 ≤ m) :
    ∃ r ks, approximate val rnd pick .linear p emax k = .ok r ∧ ks.Sublist K ∧ ks.head? = K.head? ∧
      ks.getLast? = K.getLast? ∧ Framed (Chord val Y) (.const v0) (.const vl) ks r ∧
      (emax = none → r.length = min p.length (k.getD 3)) ∧ min p.length (k.getD 3) ≤ r.length ∧
      ∀ n ∈ ks, p.eval val n = r.eval val n := by
  obtain ⟨r, ks, h1, h2, h3, h4, h5, h6, h7⟩ := approximate_spec (line_theory hv hr hp hK hg) hK (line_framed hp hK) hpick hk
    (emax := emax)
  have h5' : Framed (Chord val Y) (.const v0) (.const vl) ks r := by
    obtain ⟨a, z, bs, k1, k2, k3, k4⟩ := h5
    exact ⟨a, z, bs, k1, k2, k3.imp (fun _ _ _ h => h.2), k4⟩
  have hks : ks.Pairwise (· < ·) := hK.sublist h2
  -- the value of such a function at one of its knots
  have hval : ∀ {L : List ℤ} {q : PF}, L.Pairwise (· < ·) → Framed (Chord val Y) (.const v0) (.const vl) L q → ∀ n ∈ L,
      q.eval val n = .ok (some (if L.getLast? = some n then vl else Y n)) := by
    intro L q hL hq n hn
    obtain ⟨hQ, hcov⟩ := hq.lines hL rfl rfl (fun a b f hf => hf.straight)
    obtain ⟨a, z, bs, k1, k2, k3, rfl⟩ := hq
    refine (eval_ok_iff hQ.disj).2 ?_
    by_cases hz : L.getLast? = some n
    · rw [if_pos hz]
      rw [k2] at hz
      cases hz
      exact ⟨(lastI n, .const vl), by simp, lastI_mem.2 (le_refl _), rfl⟩
    · rw [if_neg hz]
      have hnz : n < z := by
        rcases (sorted_last hL k2 n hn).lt_or_eq with h | h
        · exact h
        · rw [h, k2] at hz; exact absurd rfl hz
      obtain ⟨s, hs, hm⟩ := k3.covers k1 k2 n (sorted_head hL k1 n hn) hnz
      obtain ⟨x, y, e1, e2, e3, e4, e5, e6⟩ := k3.knot hL s hs
      rw [e1, co_mem] at hm
      have hx : n = x := by
        rcases e6 n hn with h | h
        · omega
        · omega
      subst hx
      exact ⟨s, by simp [hs], by rw [e1, co_mem]; exact hm, e5.2.1⟩
  refine ⟨r, ks, h1, h2, h3.1, h3.2, h5', h6, h7, fun n hn => ?_⟩
  rw [hval hK hp n (h2.subset hn), hval hks h5' n hn, h3.2]

/-- For the examples: a line with bends at 0, 10, 20 and 30. -/
abbrev bends : PF := [(firstI 0, .const 0), (co 0 10, .lin 1 0), (co 10 20, .lin 2 (-10)), (co 20 30, .lin 5 (-70)),
  (lastI 30, .const 80)]

/-- For the examples: the values at the bends. -/
abbrev bendY (n : ℤ) : ℚ := if n = 0 then 0 else if n = 10 then 10 else if n = 20 then 30 else 80

example : Framed (Chord ival bendY) (.const 0) (.const 80) [0, 10, 20, 30] bends :=
  ⟨0, 30, _, rfl, rfl, .cons ⟨.inr ⟨1, 0, rfl⟩, by decide +kernel, by decide +kernel⟩
    (.cons ⟨.inr ⟨2, -10, rfl⟩, by decide +kernel, by decide +kernel⟩
      (.cons ⟨.inr ⟨5, -70, rfl⟩, by decide +kernel, by decide +kernel⟩ (.one 30))), rfl⟩

example : GenericLines ival bendY 0 [0, 10, 20, 30] ∧ approximate ival irnd pickLeast .linear bends none (some 4) =
    .ok [(firstI 0, .const 0), (co 0 20, .lin (3 / 2) 0), (co 20 30, .lin 5 (-70)), (lastI 30, .const 80)] :=
  ⟨by decide +kernel, by decide +kernel⟩

/-! ## What is refused -/

/-- Fewer than three pieces are refused, whatever the function. -/
theorem C101_too_few (kind : By) {m : ℕ} (hm : m < 3) :
    approximate val rnd pick kind p emax (some m) = .error .valueError := by
  simp [approximate, hm]

/-- Other classes than constants and lines are refused if there is anything to replace. -/
theorem C101_other_class {B : ℤ → ℤ → Fn → Prop} {f0 fl : Fn} {a b c : ℤ} {Q : List ℤ}
    (hK : (a :: b :: c :: Q).Pairwise (· < ·)) (hp : Framed B f0 fl (a :: b :: c :: Q) p)
    (hB : ∀ a b f, B a b f → (∃ v, f = .const v) ∨ ∃ m c, f = .lin m c) (hk : ∀ m, k = some m → 3 ≤ m) :
    approximate val rnd pick .other p emax k = .error .typeError := by
  obtain ⟨hab, hbc, -⟩ := sorted_three (a := a) (b := b) (c := c) (by simp) hK
  obtain ⟨x, z, bs, k1, k2, k3, hpe⟩ := hp
  cases k3 with
  | @cons _ _ _ f bs hf k3 =>
  cases k3 with
  | @cons _ _ _ g bs hg k3 =>
  have hev : ∀ {a b f}, B a b f → ∀ q, ∃ y, f.eval q = some y := by
    intro a b f h q
    rcases hB a b f h with ⟨v, rfl⟩ | ⟨m, c, rfl⟩ <;> exact ⟨_, rfl⟩
  obtain ⟨u, hu⟩ := hev hf (val a)
  obtain ⟨w, hw⟩ := hev hg (val c)
  have hcon : construct val rnd p .other ⟨co a b, f⟩ ⟨co b c, g⟩ = .error .typeError := by
    have hmk : CS.mk? (co a b).lower (co b c).upper (co a b).left (co b c).right = .ok (co a c) := by
      have : ¬ (fin a > fin c) := by simp [FP.lt_def, leb]; omega
      simp [CS.mk?, co, this]
    unfold construct
    rw [if_neg (by simp [co_contiguous hab hbc, co_inf])]
    simp only [hmk, bind, Except.bind]
    have e1 : (co a c).lower = fin a := rfl
    have e2 : (co a c).upper = fin c := rfl
    simp only [e1, e2, hu, hw, replaceBy]
  have hcand : candidates val rnd p .other p ⟨p, fun _ => noRepl, 0, []⟩ = .error .typeError := by
    conv_lhs => arg 5; rw [hpe]
    simp only [List.cons_append, candidates]
    rw [if_pos (by simp [firstI, CS.isninf, FP.isInf]), if_neg (by simp [co_contiguous hab hbc, co_inf]), hcon]
    rfl
  unfold approximate
  rw [if_neg]
  · rw [hcand]; rfl
  · cases k with
    | none => simp
    | some m => simpa using hk m rfl

example : approximate ival irnd pickLeast .other bends none none = .error .typeError ∧
    approximate ival irnd pickLeast .linear bends none (some 2) = .error .valueError :=
  ⟨by decide +kernel, by decide +kernel⟩

/-! ## Violations -/

/-- The functions of the replaced pieces are looked up in the list of all functions by equality.  If an earlier piece has an
equal function, that one is removed, and the functions between move to their left neighbours: this density, which is 0 below
0, becomes 1 on all of `(-inf, 0)`. -/
theorem C101_violated_shift : approximate ival irnd pickLeast .constant
    [(firstI 0, .const 0), (co 0 10, .const 1), (co 10 20, .const (1 / 4)), (co 20 30, .const 0), (co 30 40, .const 3),
      (lastI 40, .const 0)] none (some 5) =
    .ok [(firstI 0, .const 1), (co 0 10, .const 0), (co 10 30, .const (9 / 76)), (co 30 40, .const 3),
      (lastI 40, .const 0)] := by decide +kernel

/-- The same with lines, if a part of the function is as flat as its beginning. -/
theorem C101_violated_shift_line : (approximate ival irnd pickLeast .linear
    [(firstI 0, .const 0), (co 0 10, .lin 1 0), (co 10 20, .lin (-1) 20), (co 20 30, .lin 0 0), (co 30 40, .lin 1 (-30)),
      (lastI 40, .const 10)] none (some 5)).bind (fun r => r.eval ival (-5)) = .ok (some (-5)) := by decide +kernel

/-- The width of `[a, b)` is the distance of its least and its greatest float, so that the widths of two neighbouring pieces
do not add up to that of their union, and the approximation has another area. -/
theorem C101_violated_area : (approximate ival irnd pickLeast .constant steps4 none (some 5)).bind (fun r => r.integrate ival) ≠
    steps4.integrate ival := by decide +kernel

/-- A function with a gap between two parts is refused: the last candidate of the first part is linked to the first one of
the second part. -/
theorem C101_violated_gap : approximate ival irnd pickLeast .constant
    [(co 0 10, .const 1), (co 10 20, .const 2), (co 30 40, .const 5), (co 40 50, .const 9)] none (some 3) =
    .error .valueError := by decide +kernel

end PF

end Verif.Fun
