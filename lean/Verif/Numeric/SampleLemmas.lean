import Verif.Numeric.MomentLemmas
import Verif.Numeric.PpfLemmas

/-! # Sampling from fitted distributions -/

namespace Verif.Num

open Iv Iv.FP Fun

/-- The probabilities of the pieces; the last ends at `e`. -/
def probsOf (X : ℤ → ℚ) : List (ℤ × ℚ) → ℤ → List ℚ
  | [a, b], e => [(b.2 - a.2) / (X b.1 - X a.1) * (X e - X a.1)]
  | a :: b :: d :: l, e => (b.2 - a.2) :: probsOf X (b :: d :: l) e
  | _, _ => []

theorem pieceProb_eq {val : ℤ → ℚ} {a b : ℤ × ℚ} {e : ℤ} :
    (do
      let y ← evalFP val (lineOf val a b) (fin e)
      let x ← evalFP val (lineOf val a b) (fin a.1)
      .ok (y - x) : Except Err ℚ) = .ok ((b.2 - a.2) / (val b.1 - val a.1) * (val e - val a.1)) := by
  simp only [lineOf, evalFP, Fn.eval, bind, Except.bind, Except.ok.injEq]
  ring

theorem probs_pieces {val : ℤ → ℚ} (hval : StrictMono val) {e : ℤ} : ∀ {l : List (ℤ × ℚ)} {a b : ℤ × ℚ},
    Rising (a :: b :: l) →
    (tile (fin a.1) (lineOf val a b) (segs val (b :: l)) (fin e)).mapM (fun s => do
      let b ← evalFP val s.2 s.1.upper
      let a ← evalFP val s.2 s.1.lower
      .ok (b - a)) = .ok (probsOf val (a :: b :: l) e)
  | [], a, b, hr => by
    simp only [segs, tile, List.mapM_cons, List.mapM_nil, pieceProb_eq]
    rfl
  | d :: l, a, b, hr => by
    have hr' := List.pairwise_cons.1 hr
    have hab := hr'.1 b (by simp)
    have h1 : (b.2 - a.2) / (val b.1 - val a.1) * (val b.1 - val a.1) = b.2 - a.2 :=
      div_mul_cancel₀ _ (sub_pos.2 (hval hab.1)).ne'
    simp only [segs, tile, List.mapM_cons, pieceProb_eq, probs_pieces hval hr'.2, probsOf, h1]
    rfl

theorem probsOf_sum {X : ℤ → ℚ} (hX : StrictMono X) {e : ℤ} : ∀ {l : List (ℤ × ℚ)} {k z : ℤ × ℚ},
    Rising (l ++ [k, z]) → (probsOf X (l ++ [k, z]) e).sum =
      z.2 - ((l ++ [k, z]).head?.map Prod.snd).getD 0 + (z.2 - k.2) / (X z.1 - X k.1) * (X e - X z.1)
  | [], k, z, hr => by
    have hab := (List.pairwise_cons.1 hr).1 z (by simp)
    have := (sub_pos.2 (hX hab.1)).ne'
    simp only [List.nil_append, probsOf, List.sum_singleton, List.head?_cons, Option.map_some, Option.getD_some]
    field_simp
    ring
  | [a], k, z, hr => by
    have := probsOf_sum hX (e := e) (l := []) (k := k) (z := z) (List.pairwise_cons.1 hr).2
    simp only [List.nil_append, List.cons_append, List.head?_cons, Option.map_some, Option.getD_some] at this ⊢
    rw [probsOf, List.sum_cons, this]; ring
  | a :: b :: l, k, z, hr => by
    have := probsOf_sum hX (e := e) (l := b :: l) (k := k) (z := z) (List.pairwise_cons.1 hr).2
    cases l with
    | nil =>
      simp only [List.nil_append, List.cons_append, List.head?_cons, Option.map_some, Option.getD_some] at this ⊢
      rw [probsOf, List.sum_cons, this]; ring
    | cons d l =>
      simp only [List.cons_append, List.head?_cons, Option.map_some, Option.getD_some] at this ⊢
      rw [probsOf, List.sum_cons, this]; ring

theorem probsOf_length {X : ℤ → ℚ} {e : ℤ} : ∀ {l : List (ℤ × ℚ)} {a b : ℤ × ℚ},
    (probsOf X (a :: b :: l) e).length = l.length + 1
  | [], _, _ => rfl
  | d :: l, a, b => by simp only [probsOf, List.length_cons, probsOf_length (l := l)]

theorem probsOf_nonneg {X : ℤ → ℚ} (hX : StrictMono X) {e : ℤ} : ∀ {l : List (ℤ × ℚ)} {a b : ℤ × ℚ},
    Rising (a :: b :: l) → (∀ q ∈ a :: b :: l, q.1 < e) → ∀ v ∈ probsOf X (a :: b :: l) e, 0 ≤ v
  | [], a, b, hr, he, v, hv => by
    have hab := (List.pairwise_cons.1 hr).1 b (by simp)
    simp only [probsOf, List.mem_singleton] at hv
    rw [hv]
    have h1 := hX hab.1
    have h2 := hX (he a (by simp))
    exact mul_nonneg (div_nonneg (by linarith [hab.2]) (by linarith)) (by linarith)
  | d :: l, a, b, hr, he, v, hv => by
    have hr' := List.pairwise_cons.1 hr
    have hab := hr'.1 b (by simp)
    simp only [probsOf, List.mem_cons] at hv
    rcases hv with rfl | hv
    · linarith [hab.2]
    · exact probsOf_nonneg hX hr'.2 (fun q hq => he q (List.mem_cons_of_mem _ hq)) v hv

theorem probsOf_get {X : ℤ → ℚ} (hX : StrictMono X) {e : ℤ} : ∀ {l : List (ℤ × ℚ)} {a b : ℤ × ℚ} {i : ℕ} {p q : ℤ × ℚ},
    Rising (a :: b :: l) → (a :: b :: l)[i]? = some p → (a :: b :: l)[i + 1]? = some q →
    (probsOf X (a :: b :: l) e)[i]? = some (q.2 - p.2 +
      if i = l.length then (q.2 - p.2) / (X q.1 - X p.1) * (X e - X q.1) else 0)
  | [], a, b, 0, p, q, hr, hp, hq => by
    have hab := (List.pairwise_cons.1 hr).1 b (by simp)
    have := (sub_pos.2 (hX hab.1)).ne'
    simp at hp hq; subst hp hq
    simp only [probsOf, List.getElem?_cons_zero, List.length_nil, if_true, Option.some.injEq]
    field_simp
    ring
  | [], a, b, i + 1, p, q, hr, hp, hq => by simp at hq
  | d :: l, a, b, 0, p, q, hr, hp, hq => by
    simp at hp hq; subst hp hq
    simp [probsOf]
  | d :: l, a, b, i + 1, p, q, hr, hp, hq => by
    have := probsOf_get hX (e := e) (i := i) (p := p) (q := q) (List.pairwise_cons.1 hr).2 (by simpa using hp) (by simpa using hq)
    simp only [probsOf, List.getElem?_cons_succ, this, List.length_cons, Nat.add_right_cancel_iff]

theorem piece_get {val : ℤ → ℚ} {e : ℤ} : ∀ {l : List (ℤ × ℚ)} {a b : ℤ × ℚ} {i : ℕ} {p q : ℤ × ℚ},
    (a :: b :: l)[i]? = some p → (a :: b :: l)[i + 1]? = some q →
    (tile (fin a.1) (lineOf val a b) (segs val (b :: l)) (fin e))[i]? =
      some (⟨fin p.1, fin (if i = l.length then e else q.1), .inc, .exc⟩, lineOf val p q)
  | [], a, b, 0, p, q, hp, hq => by
    simp at hp hq; subst hp hq
    simp [segs, tile, brOf]
  | [], a, b, i + 1, p, q, hp, hq => by simp at hq
  | d :: l, a, b, 0, p, q, hp, hq => by
    simp at hp hq; subst hp hq
    simp [segs, tile, brOf]
  | d :: l, a, b, i + 1, p, q, hp, hq => by
    have := piece_get (val := val) (e := e) (i := i) (p := p) (q := q) (a := b) (b := d) (by simpa using hp) (by simpa using hq)
    simp only [segs, tile, List.getElem?_cons_succ, List.length_cons, Nat.add_right_cancel_iff] at this ⊢
    exact this

end Verif.Num
