import Verif.Trees.Consistent
import Verif.Trees.Props17
import Verif.Learn.Props2

/-!
# C94: consistency of nodes and leaves with evidence, and conditioned leaves
-/

namespace Verif.Trees

open Learn (Cfg Data learn DataOK fullOf exists_ok Sat Valid RegOK fullOf_clear)

variable {D E : Type}

/-! ## Specification -/

/-- The number or label is what the evidence says. -/
def EvVal.Holds : EvVal → ℚ → Prop
  | .single y, q => q = y
  | .range r, q => r.Mem (.fin q)

/-- Evidence of the right kind: a number or a proper interval for a numeric variable, a label or a set of labels for others. -/
def EvFits (c : Cfg) (i : ℕ × EvVal) : Prop :=
  match c.vars[i.1]?, i.2 with
  | none, _ => False
  | some .numeric, .single _ => True
  | some .numeric, .range (.num I) => RIOK I
  | some .numeric, .range (.set _) => False
  | some _, .single _ => True
  | some _, .range (.set _) => True
  | some _, .range (.num _) => False

/-! ## Lemmas -/

theorem pathMap_inv (Q : ℕ → Region → Prop) (full : ℕ → Region) (path : Path) (hf : ∀ v, Q v (full v))
    (hp : ∀ e ∈ path, Q e.1 e.2) (hi : ∀ v a b, Q v a → Q v b → Q v (a.inter b)) :
    ∀ v R, (pathMap full path).lookup v = some R → Q v R := by
  induction path using List.reverseRecOn with
  | nil => simp [pathMap]
  | append_singleton l r ih =>
    have ih := ih (fun e he => hp e (by simp [he]))
    intro v R hR
    rw [pathMap_snoc, Dict.lookup_set] at hR
    by_cases hv : v = r.1
    · rw [if_pos hv] at hR
      obtain rfl := Option.some.inj hR
      subst hv
      apply hi
      · cases hl : (pathMap full l).lookup r.1 with
        | none => exact hf _
        | some R' => exact ih _ _ hl
      · exact hp r (by simp)
    · rw [if_neg hv] at hR
      exact ih v R hR

theorem ok_of_mem {R : Region} {x : XQ} (h : R.Mem x) : R.OK := by
  cases R with
  | set l => trivial
  | num c =>
    unfold Region.OK RIOK
    unfold Region.Mem RIMem at h
    grind

/-- What the loop returns if no item is an error. -/
theorem consistent_eq {full : ℕ → Region} {path : Path} (f : ℕ × EvVal → Bool) : ∀ (e : List (ℕ × EvVal)),
    (∀ i ∈ e, ∀ R, (pathMap full path).lookup i.1 = some R → consistentItem R i.2 = .ok (f i)) →
    ∃ b, consistentWith full path e = .ok b ∧
      (b = true ↔ ∀ i ∈ e, ∀ R, (pathMap full path).lookup i.1 = some R → f i = true)
  | [], _ => ⟨true, rfl, by simp⟩
  | (v, x) :: e, h => by
    obtain ⟨b, h1, h2⟩ := consistent_eq f e (fun i hi => h i (by simp [hi]))
    unfold consistentWith
    cases hl : (pathMap full path).lookup v with
    | none =>
      refine ⟨b, h1, ?_⟩
      rw [h2]
      simp [hl]
    | some R =>
      simp only
      rw [h (v, x) (by simp) R hl]
      cases hf : f (v, x) with
      | false => exact ⟨false, rfl, by simp [hl, hf]⟩
      | true =>
        refine ⟨b, h1, ?_⟩
        rw [h2]
        simp [hl, hf]

section

variable (c : Cfg) (data : Data) (total : ℕ) (fit : List ℕ → ℕ → D) (hdata : DataOK c data total) {h : Heap D}
  (hl : learn c data total fit = .ok h)

/-- The kind of a region. -/
def KindOf (c : Cfg) (v : ℕ) (R : Region) : Prop :=
  match c.vars[v]? with
  | none => True
  | some .numeric => ∃ I, R = .num I
  | some _ => ∃ l, R = .set l

include hdata hl in
theorem path_kind {l : ℕ × Leaf D} (hle : l ∈ h.leaves) :
    ∀ v R, (pathMap (fullOf c) l.2.path).lookup v = some R → KindOf c v R := by
  obtain ⟨ix, hI⟩ := Learn.learn_inv hdata hl
  apply pathMap_inv
  · intro v
    unfold KindOf fullOf
    cases hv : c.vars[v]? with
    | none => trivial
    | some k => cases k <;> exact ⟨_, rfl⟩
  · intro s hs
    have := ((hI.leaf l hle).regions s hs).2
    unfold KindOf
    cases hv : c.vars[s.1]? with
    | none => trivial
    | some k =>
      rw [hv] at this
      cases k with
      | numeric => exact this
      | integer n =>
        obtain ⟨z, h1, -⟩ := this
        exact ⟨z, h1⟩
      | symbolic n =>
        obtain ⟨z, h1, -⟩ := this
        exact ⟨z, h1⟩
  · intro v a b ha hb
    unfold KindOf at *
    cases hv : c.vars[v]? with
    | none => trivial
    | some k =>
      rw [hv] at ha hb
      cases k <;>
        (obtain ⟨x, rfl⟩ := ha
         obtain ⟨y, rfl⟩ := hb
         exact ⟨_, rfl⟩)

include hdata hl in
/-- The restrictions of a leaf have members: the rows of the leaf. -/
theorem path_rows {l : ℕ × Leaf D} (hle : l ∈ h.leaves) {r : ℕ} (hr : r ∈ l.2.rows) :
    r < total ∧ ∀ v R, (pathMap (fullOf c) l.2.path).lookup v = some R → R.Mem (.fin (data r v)) := by
  obtain ⟨ix, hI⟩ := Learn.learn_inv hdata hl
  have hrt : r < total := by
    have := hI.rows.mem_iff (a := r)
    simp only [List.flatMap_nil, List.append_nil, List.mem_flatMap, List.mem_range] at this
    exact this.1 ⟨l, hle, hr⟩
  refine ⟨hrt, fun v R hR => ?_⟩
  rw [pathMap_lookup (fullOf c) l.2.path v _ R hR]
  exact ⟨Learn.fullOf_mem (hdata r hrt) v, fun s hs hv => by
    subst hv
    exact (hI.leaf l hle).sat r hr s hs⟩

include hdata hl in
open Classical in
theorem item_eq {l : ℕ × Leaf D} (hle : l ∈ h.leaves) {i : ℕ × EvVal} (hfit : EvFits c i)
    (hclear : ∀ y, i.2 = .single y → ∀ s ∈ l.2.path, s.1 = i.1 → ∀ I, s.2 = .num I → I.lower ≠ .fin y ∧ I.upper ≠ .fin y)
    {R : Region} (hR : (pathMap (fullOf c) l.2.path).lookup i.1 = some R) :
    consistentItem R i.2 = .ok (decide (∃ q : ℚ, R.Mem (.fin q) ∧ i.2.Holds q)) := by
  obtain ⟨ix, hI⟩ := Learn.learn_inv hdata hl
  have hne : ∃ r, r ∈ l.2.rows := by
    cases hr : l.2.rows with
    | nil => exact absurd hr (hI.leaf l hle).nonempty
    | cons a t => exact ⟨a, by simp⟩
  obtain ⟨r, hr⟩ := hne
  have hok : R.OK := ok_of_mem ((path_rows c data total fit hdata hl hle hr).2 _ _ hR)
  have hk := path_kind c data total fit hdata hl hle _ _ hR
  have hlook := pathMap_lookup (fullOf c) l.2.path i.1
  obtain ⟨v, x⟩ := i
  cases x with
  | single y =>
    have hh : (∃ q : ℚ, R.Mem (.fin q) ∧ (EvVal.single y).Holds q) ↔ R.Mem (.fin y) := by
      simp [EvVal.Holds]
    have hc : RClear y R := by
      refine pathMap_inv (fun u S => u = v → RClear y S) (fullOf c) l.2.path ?_ ?_ ?_ v R hR rfl
      · rintro u -
        exact fullOf_clear c (fun _ => y) u
      · intro s hs hsv
        cases hs2 : s.2 with
        | num I => exact .inl (hclear y rfl s hs hsv I hs2)
        | set l => trivial
      · intro u a b ha hb hu
        exact rclear_inter (ha hu) (hb hu)
    have hm := meets_iff hc
    simp only [hh]
    cases R with
    | num I =>
      simp only [consistentItem, Except.ok.injEq]
      rw [Bool.eq_iff_iff, decide_eq_true_eq, ← hm]
      rfl
    | set z =>
      simp only [consistentItem, Except.ok.injEq]
      rw [Bool.eq_iff_iff, decide_eq_true_eq, ← hm]
      rfl
  | range S =>
    have hfin : ∀ x, R.Mem x → ∃ q : ℚ, x = .fin q := by
      intro x hx
      have := ((hlook x R hR).1 hx).1
      unfold fullOf at this
      cases x with
      | fin q => exact ⟨q, rfl⟩
      | _ =>
        cases hv : c.vars[v]? with
        | none => simp [hv, Region.Mem, RIMem] at this
        | some k => cases k <;> simp [hv, Region.Mem, RIMem] at this
    have hSok : S.OK := by
      unfold EvFits at hfit
      cases S with
      | set z => trivial
      | num I =>
        cases hv : c.vars[v]? with
        | none => simp [hv] at hfit
        | some k => cases k <;> simp [hv] at hfit; exact hfit
    have hd : ∀ b : Bool, b = S.disjoint R → (!b) = decide (∃ q : ℚ, R.Mem (.fin q) ∧ (EvVal.range S).Holds q) := by
      intro b hb
      rw [Bool.eq_iff_iff, decide_eq_true_eq, hb, Bool.not_eq_true', ← Bool.not_eq_true, Region.disjoint_iff hSok hok]
      push Not
      constructor
      · rintro ⟨x, h1, h2⟩
        obtain ⟨q, rfl⟩ := hfin x h2
        exact ⟨q, h2, h1⟩
      · rintro ⟨q, h1, h2⟩
        exact ⟨_, h2, h1⟩
    unfold EvFits at hfit
    unfold KindOf at hk
    cases hv : c.vars[v]? with
    | none => simp [hv] at hfit
    | some k =>
      cases k <;> cases S <;> cases R <;> simp [hv] at hfit hk
      all_goals
        simp only [consistentItem, Except.ok.injEq]
        exact hd _ rfl

/-! ## C94: consistency with evidence -/

include hdata hl in
/-- A leaf of a learned tree is consistent with evidence exactly if some sample satisfies the leaf's path and all of the
evidence.  The evidence names distinct variables, with a number or interval for numeric variables, a label or a set of
labels for others, and every item alone is possible.  Missing: single numbers that are a threshold on the path, see
`C94_violated_threshold`. -/
theorem C94_consistent_partial {l : ℕ × Leaf D} (hle : l ∈ h.leaves) (e : List (ℕ × EvVal)) (hnd : (e.map Prod.fst).Nodup)
    (hfit : ∀ i ∈ e, EvFits c i) (hposs : ∀ i ∈ e, ∃ x, Valid c x ∧ i.2.Holds (x i.1))
    (hclear : ∀ (v : ℕ) (y : ℚ), (v, EvVal.single y) ∈ e → ∀ s ∈ l.2.path, s.1 = v → ∀ I, s.2 = .num I →
      I.lower ≠ .fin y ∧ I.upper ≠ .fin y) :
    ∃ b, consistentWith (fullOf c) l.2.path e = .ok b ∧
      (b = true ↔ ∃ x, Valid c x ∧ Sat l.2.path x ∧ ∀ i ∈ e, i.2.Holds (x i.1)) := by
  classical
  obtain ⟨b, h1, h2⟩ := consistent_eq (full := fullOf c) (path := l.2.path) (fun i => match (pathMap (fullOf c) l.2.path).lookup i.1 with
      | none => true
      | some R => decide (∃ q : ℚ, R.Mem (.fin q) ∧ i.2.Holds q)) e (by
    intro i hi R hR
    rw [hR]
    exact item_eq c data total fit hdata hl hle (hfit i hi) (fun y hy => hclear i.1 y (by rw [← hy]; exact hi)) hR)
  refine ⟨b, h1, h2.trans ⟨fun hall => ?_, ?_⟩⟩
  · obtain ⟨ix, hI⟩ := Learn.learn_inv hdata hl
    obtain ⟨r, hr⟩ : ∃ r, r ∈ l.2.rows := by
      cases hr : l.2.rows with
      | nil => exact absurd hr (hI.leaf l hle).nonempty
      | cons a t => exact ⟨a, by simp⟩
    obtain ⟨hrt, hmem⟩ := path_rows c data total fit hdata hl hle hr
    have hsat := (hI.leaf l hle).sat r hr
    have hval := hdata r hrt
    have key : ∀ v : ℕ, ∃ q : ℚ, (∀ n : ℕ, c.vars[v]? = some (.integer n) ∨ c.vars[v]? = some (.symbolic n) →
        ∃ i : ℕ, i < n ∧ q = (i : ℚ)) ∧ (∀ s ∈ l.2.path, s.1 = v → s.2.Mem (.fin q)) ∧
        ∀ i ∈ e, i.1 = v → i.2.Holds q := by
      intro v
      by_cases hv : v ∈ e.map Prod.fst
      · obtain ⟨i, hi, rfl⟩ := List.mem_map.1 hv
        have huniq : ∀ j ∈ e, j.1 = i.1 → j = i := fun j hj hji =>
          List.inj_on_of_nodup_map hnd hj hi hji
        cases hL : (pathMap (fullOf c) l.2.path).lookup i.1 with
        | none =>
          obtain ⟨x, hx, hh⟩ := hposs i hi
          refine ⟨x i.1, fun n => hx i.1 n, fun s hs hsv => ?_, fun j hj hji => by rw [huniq j hj hji]; exact hh⟩
          rw [Dict.lookup_none] at hL
          exact absurd ((pathMap_keys (fullOf c) l.2.path i.1).2 (List.mem_map.2 ⟨s, hs, hsv⟩)) hL
        | some R =>
          have h3 := hall i hi R hL
          simp only [hL, decide_eq_true_eq] at h3
          obtain ⟨q, hq, hh⟩ := h3
          obtain ⟨h4, h5⟩ := (pathMap_lookup (fullOf c) l.2.path i.1 _ R hL).1 hq
          refine ⟨q, fun n hn => ?_, h5, fun j hj hji => by rw [huniq j hj hji]; exact hh⟩
          have hset : (Region.set (Learn.domainOf n)).Mem (.fin q) := by
            unfold fullOf at h4
            rcases hn with hn | hn <;> (rw [hn] at h4; exact h4)
          obtain ⟨z, hz, hq⟩ := hset
          obtain ⟨k, hk, rfl⟩ := List.mem_map.1 hz
          exact ⟨k, List.mem_range.1 hk, by simpa using hq⟩
      · exact ⟨data r v, fun n => hval v n, fun s hs hsv => by subst hsv; exact hsat s hs, fun i hi hiv =>
          absurd (List.mem_map.2 ⟨i, hi, hiv⟩) hv⟩
    choose x hx using key
    exact ⟨x, fun v n => (hx v).1 n, fun s hs => (hx s.1).2.1 s hs rfl, fun i hi => (hx i.1).2.2 i hi rfl⟩
  · rintro ⟨x, hx, hs, hh⟩ i hi R hR
    simp only [hR, decide_eq_true_eq]
    exact ⟨x i.1, (pathMap_lookup (fullOf c) l.2.path i.1 _ R hR).2 ⟨Learn.fullOf_mem hx i.1, fun s hss hsv => by
      rw [← hsv]; exact hs s hss⟩, hh i hi⟩

include hdata hl in
/-- Every leaf of a learned tree is consistent with each of its training rows, and with any part of it. -/
theorem C94_training_rows {l : ℕ × Leaf D} (hle : l ∈ h.leaves) {r : ℕ} (hr : r ∈ l.2.rows) (vs : List ℕ)
    (hvs : ∀ v ∈ vs, v < c.vars.length) :
    consistentWith (fullOf c) l.2.path (vs.map (fun v => (v, .single (data r v)))) = .ok true := by
  classical
  obtain ⟨ix, hI⟩ := Learn.learn_inv hdata hl
  obtain ⟨hrt, hmem⟩ := path_rows c data total fit hdata hl hle hr
  have key : ∀ i ∈ vs.map (fun v => (v, EvVal.single (data r v))), ∀ R,
      (pathMap (fullOf c) l.2.path).lookup i.1 = some R → consistentItem R i.2 = .ok true := by
    intro i hi R hR
    obtain ⟨v, hv, rfl⟩ := List.mem_map.1 hi
    rw [item_eq c data total fit hdata hl hle ?_ ?_ hR]
    · rw [Except.ok.injEq, decide_eq_true_eq]
      exact ⟨data r v, hmem v R hR, rfl⟩
    · unfold EvFits
      have := hvs v hv
      rw [List.getElem?_eq_getElem this]
      cases c.vars[v] <;> trivial
    · intro y hy s hs hsv I hsI
      obtain rfl := EvVal.single.inj hy
      simp only at hsv
      obtain ⟨t, h1, -, h3⟩ := (hI.leaf l hle).cut s hs I hsI
      have h4 := h3 r hr
      rw [hsv] at h4
      rcases h1 with rfl | rfl
      · exact ⟨by simp, by simpa using Ne.symm h4⟩
      · exact ⟨by simpa using Ne.symm h4, by simp⟩
  obtain ⟨b, h1, h2⟩ := consistent_eq (full := fullOf c) (path := l.2.path) (fun _ => true) _ key
  rw [h1, h2.2 (fun _ _ _ _ => rfl)]

end

/-- Evidence of the wrong kind for the first variable: where the path restricts a numeric variable, a set of labels raises
`TypeError`; where it restricts a symbolic or integer variable, an interval is consistent with no leaf. -/
theorem C94_wrong_kind (full : ℕ → Region) (path : Path) (v : ℕ) (e : List (ℕ × EvVal)) :
    (∀ I s, (pathMap full path).lookup v = some (.num I) →
      consistentWith full path ((v, .range (.set s)) :: e) = .error .typeError) ∧
    ∀ s I, (pathMap full path).lookup v = some (.set s) →
      consistentWith full path ((v, .range (.num I)) :: e) = .ok false := by
  constructor <;> intro a b h <;> simp only [consistentWith, h, consistentItem]

/-- At a threshold the wrong leaf is consistent: after learning from the values 0 and 2, the number 1 satisfies the path
of the right leaf only, but the left leaf is reported to be consistent with it and the right leaf not to be. -/
theorem C94_violated_threshold : ∃ (a : Learn.Args) (data : Data) (h : Heap Unit) (x : ℕ → ℚ),
    learn (a.cfg 2) data 2 (fun _ _ => ()) = .ok h ∧ Valid (a.cfg 2) x ∧
    ∃ l r, l ∈ h.leaves ∧ r ∈ h.leaves ∧ ¬ Sat l.2.path x ∧ Sat r.2.path x ∧
      consistentWith (fullOf (a.cfg 2)) l.2.path [(0, .single (x 0))] = .ok true ∧
      consistentWith (fullOf (a.cfg 2)) r.2.path [(0, .single (x 0))] = .ok false := by
  obtain ⟨h, h1, h2⟩ : ∃ h, learn (Learn.exNum.cfg 2) Learn.exNumData 2 (fun _ _ => ()) = .ok h ∧
      (((h.leaves.lookup 1).any (fun l => !decide (Sat l.path (fun _ => 1)) &&
        decide (consistentWith (fullOf (Learn.exNum.cfg 2)) l.path [(0, .single 1)] = .ok true))) &&
      ((h.leaves.lookup 2).any (fun l => decide (Sat l.path (fun _ => 1)) &&
        decide (consistentWith (fullOf (Learn.exNum.cfg 2)) l.path [(0, .single 1)] = .ok false)))) = true :=
    exists_ok (by decide +kernel)
  refine ⟨Learn.exNum, Learn.exNumData, h, fun _ => 1, h1, ?_, ?_⟩
  · intro v n hv
    exfalso
    match v, hv with
    | 0, hv => rcases hv with h | h <;> exact absurd h (by simp [Learn.exNum, Learn.Args.cfg])
    | v + 1, hv => rcases hv with h | h <;> exact absurd h (by simp [Learn.exNum, Learn.Args.cfg])
  · rw [Bool.and_eq_true, Option.any_eq_true, Option.any_eq_true] at h2
    obtain ⟨⟨l, hl, hs⟩, r, hr, hs'⟩ := h2
    rw [Bool.and_eq_true, Bool.not_eq_true', decide_eq_false_iff_not, decide_eq_true_eq] at hs
    rw [Bool.and_eq_true, decide_eq_true_eq, decide_eq_true_eq] at hs'
    exact ⟨(1, l), (2, r), Dict.lookup_mem hl, Dict.lookup_mem hr, hs.1, hs'.1, hs.2, hs'.2⟩

/-! ## C94: leaves given evidence -/

section

variable {L : Type} [DecidableEq L]

open Disc in
theorem crop_zero {d : DD L} (hd : d.2.Proper) (l : List ℤ) (hp : discP d (.set l) = 0) :
    (discOps L).crop d (.set l) = .error .unsatisfiable := by
  have hs : (Disc.restrict d.2.params l).sum = discP d (.set l) := by
    rw [restrict_range, Disc.zeroOutside_sum]
    rfl
  rcases d with ⟨b, d⟩
  simp only [discOps, regionArg, bind, Except.bind]
  cases b with
  | false =>
    simp only [Bool.false_eq_true, if_false, Dist.cropVal, Arg.elems, hs]
    rw [if_pos hp]
  | true =>
    simp only [if_true, Dist.intCropVal, Arg.elems]
    have hnn : ∀ q ∈ Disc.restrict d.params l, 0 ≤ q := by
      rw [restrict_range]
      exact Disc.zeroOutside_nonneg _ _ _ hd.2.2.1
    rw [Disc.normValues_nonneg _ hnn, hs, if_pos hp]

end

section

variable {K : Type} {o : DistOps D E} {ok : K → D → Prop} {fits : K → Region → Prop} {P : D → Region → ℚ} {kind : ℕ → K} {n : ℕ}

theorem crops_zero {A : K → Prop} (L : LawsOn o ok fits P A)
    (hz : ∀ k d r, A k → ok k d → fits k r → P d r = 0 → o.crop d r = .error .unsatisfiable) (e : Query) : ∀ (ds : List D),
    (∀ i ∈ e, A (kind i.1)) → (∀ (v : ℕ) (d : D), ds[v]? = some d → ok (kind v) d) → (e.map Prod.fst).Nodup →
    (∀ i ∈ e, i.1 < ds.length ∧ fits (kind i.1) i.2) →
    (∃ i ∈ e, ∃ d, ds[i.1]? = some d ∧ P d i.2 = 0) → e.foldlM (cropAt o) ds = .error .unsatisfiable := by
  induction e with
  | nil => simp
  | cons i e ih =>
    intro ds hA hok hnd hfit hex
    obtain ⟨v0, r0⟩ := i
    rw [List.map_cons, List.nodup_cons] at hnd
    obtain ⟨hlt, hfit0⟩ := hfit (v0, r0) (by simp)
    simp only at hlt hfit0 hnd
    obtain ⟨d0, hd0⟩ : ∃ d, ds[v0]? = some d := ⟨_, List.getElem?_eq_getElem hlt⟩
    rw [List.foldlM_cons]
    have hc0 : cropAt o ds (v0, r0) = (o.crop d0 r0).bind (fun d' => .ok (ds.set v0 d')) := by
      unfold cropAt
      simp only [hd0]
      rfl
    by_cases hP : P d0 r0 = 0
    · rw [hc0, hz _ _ _ (hA (v0, r0) (by simp)) (hok v0 d0 hd0) hfit0 hP]
      rfl
    · obtain ⟨d1, hc, hok1, -⟩ := L.crop _ _ _ (hA (v0, r0) (by simp)) (hok v0 d0 hd0) hfit0 hP
      rw [hc0, hc]
      have hget : ∀ v : ℕ, (ds.set v0 d1)[v]? = if v = v0 then some d1 else ds[v]? := by
        intro v
        rw [List.getElem?_set]
        by_cases hv : v = v0
        · subst hv
          simp [hlt]
        · rw [if_neg (fun hc => hv hc.symm), if_neg hv]
      refine ih (ds.set v0 d1) (fun i hi => hA i (by simp [hi])) ?_ hnd.2 ?_ ?_
      · intro v d hd
        rw [hget] at hd
        by_cases hv : v = v0
        · rw [if_pos hv] at hd
          cases hd
          rw [hv]
          exact hok1
        · rw [if_neg hv] at hd
          exact hok v d hd
      · intro i hi
        rw [List.length_set]
        exact hfit i (by simp [hi])
      · obtain ⟨i, hi, d, hd, h0⟩ := hex
        rcases List.mem_cons.1 hi with rfl | hi
        · simp only at hd h0
          rw [hd0] at hd
          cases hd
          exact absurd h0 hP
        · have hiv : i.1 ≠ v0 := fun hv => hnd.1 (List.mem_map.2 ⟨i, hi, hv⟩)
          exact ⟨i, hi, d, by rw [hget, if_neg hiv]; exact hd, h0⟩

theorem leaf_copy {A : K → Prop} (L : LawsOn o ok fits P A) {l : Leaf D}
    (hok : ∀ (v : ℕ) (d : D), l.dists[v]? = some d → ok (kind v) d) :
    l.copy o = .ok ⟨none, [], l.dists, l.prior, l.samples, l.rows⟩ := by
  have : l.dists.mapM o.reload = .ok (l.dists.map id) := by
    apply mapM_ok
    intro d hd
    obtain ⟨v, hv⟩ := List.mem_iff_getElem?.1 hd
    exact L.reload _ _ (hok v d hv)
  unfold Leaf.copy
  rw [this, List.map_id]
  rfl

theorem leaf_conditional {A : K → Prop} (L : LawsOn o ok fits P A)
    (hz : ∀ k d r, A k → ok k d → fits k r → P d r = 0 → o.crop d r = .error .unsatisfiable) {l : Leaf D}
    (hlen : l.dists.length = n) (hok : ∀ (v : ℕ) (d : D), l.dists[v]? = some d → ok (kind v) d) {e : Query}
    (he : QueryOK fits kind n e) (hA : ∀ i ∈ e, A (kind i.1)) :
    (leafProb P l e = 0 → l.conditional o e = .error .unsatisfiable) ∧
    (leafProb P l e ≠ 0 → ∃ l', l.conditional o e = .ok l' ∧ l'.parent = none ∧ l'.path = [] ∧ l'.prior = l.prior ∧
      l'.samples = l.samples ∧ l'.rows = l.rows ∧ l'.dists.length = n ∧
      (∀ v, e.lookup v = none → l'.dists[v]? = l.dists[v]?) ∧
      ∀ q, QueryOK fits kind n q → leafProb P l' q * leafProb P l e = leafProb P l (meet q e)) := by
  have hstart : ∀ r, e.foldlM (cropAt o) l.dists = r → l.conditional o e = r.map (fun ds =>
      (⟨none, [], ds, l.prior, l.samples, l.rows⟩ : Leaf D)) := by
    intro r hr
    unfold Leaf.conditional
    rw [leaf_copy L hok]
    simp only [bind, Except.bind]
    rw [hr]
    cases r <;> rfl
  constructor
  · intro h0
    rw [hstart _ (crops_zero L hz e l.dists hA hok he.1 (fun i hi => ⟨by rw [hlen]; exact (he.2 i hi).1, (he.2 i hi).2.1⟩) ?_)]
    · rfl
    · unfold leafProb at h0
      rw [List.prod_eq_zero_iff] at h0
      obtain ⟨i, hi, h1⟩ := List.mem_map.1 h0
      obtain ⟨d, hd⟩ : ∃ d, l.dists[i.1]? = some d := ⟨_, List.getElem?_eq_getElem (by rw [hlen]; exact (he.2 i hi).1)⟩
      rw [hd] at h1
      exact ⟨i, hi, d, hd, h1⟩
  · intro hne
    obtain ⟨ds, h1, h2, h3⟩ := crops L e l.dists hA hok he.1 (fun i hi => ⟨by rw [hlen]; exact (he.2 i hi).1, (he.2 i hi).2.1⟩)
      (fun i hi d hd => leafProb_factor hne hi hd)
    refine ⟨⟨none, [], ds, l.prior, l.samples, l.rows⟩, by rw [hstart _ h1]; rfl, rfl, rfl, rfl, rfl, rfl, by simp only; omega,
      ?_, ?_⟩
    · intro v hv
      simp only
      cases hd : l.dists[v]? with
      | none =>
        rw [List.getElem?_eq_none_iff] at hd ⊢
        omega
      | some d =>
        obtain ⟨d', h4, -, h5, -⟩ := h3 v d hd
        rw [h4, h5 hv]
    · intro q hq
      refine leafProb_cond (ds := ds) hlen hne he.1 hq rfl ?_
      intro v hv
      obtain ⟨d, hd⟩ : ∃ d, l.dists[v]? = some d := ⟨_, List.getElem?_eq_getElem (by rw [hlen]; exact hv)⟩
      obtain ⟨d', h4, -, -, h5⟩ := h3 v d hd
      refine ⟨d', h4, fun S hS => ?_⟩
      simp only [h5 S hS, condProb, hd]
      cases e.lookup v <;> rfl

end

section

variable {L : Type} [DecidableEq L]

/-- For all trees learned over numeric, symbolic and integer variables: a leaf is consistent with evidence exactly if its
distributions give the evidence positive probability.  Evidence is a set of labels or an interval that is not a single
point. -/
theorem C94_leaf_consistent {val : ℤ → ℚ} (hval : StrictMono val) {idx : ℚ → ℤ} (hidx : ∀ n, idx (val n) = n)
    (rnd : ℚ → ℤ) (eps : ℚ) (c : Cfg) (kind : ℕ → MK L) (data : Data) (total : ℕ) (hk : Kinds c kind)
    (hdata : DataOK c data total) (hfl : Floats val c data total) (h : Heap (MD L))
    (hl : learn c data total (fitMix val idx eps kind data) = .ok h) (e : Query)
    (he : QueryOK (mixFits val) kind c.vars.length e) (hpt : ∀ i ∈ e, i.2.point = none) (l : ℕ × Leaf (MD L))
    (hle : l ∈ h.leaves) :
    ∃ b, l.2.consistentWith (mixOps L val idx rnd) e = .ok b ∧ (b = true ↔ 0 < leafProb (mixP val idx) l.2 e) := by
  have hT := learned_mix_on hval hidx hk hdata hfl hl
  obtain ⟨h1, h2⟩ := hT.dists l hle
  unfold Leaf.consistentWith
  rw [probability_eq (mix_laws_on hval hidx rnd).toPLaws h1 h2 e he.2 hpt]
  exact ⟨_, rfl, decide_eq_true_iff⟩

/-- For all trees learned over numeric, symbolic and integer variables, with evidence on symbolic and integer variables:
`conditional_leaf` fails exactly if the evidence has probability zero in the leaf.  Otherwise the new leaf gives every query
its probability given the evidence, keeps the distributions of variables without evidence, and has no path and parent.
Missing: evidence on numeric variables, see `C94_numeric_evidence_partial`. -/
theorem C94_conditional_leaf_partial {val : ℤ → ℚ} (hval : StrictMono val) {idx : ℚ → ℤ} (hidx : ∀ n, idx (val n) = n)
    (rnd : ℚ → ℤ) (eps : ℚ) (c : Cfg) (kind : ℕ → MK L) (data : Data) (total : ℕ) (hk : Kinds c kind)
    (hdata : DataOK c data total) (hfl : Floats val c data total) (h : Heap (MD L))
    (hl : learn c data total (fitMix val idx eps kind data) = .ok h) (e : Query)
    (he : QueryOK (mixFits val) kind c.vars.length e) (hdisc : ∀ i ∈ e, ∃ k, kind i.1 = .inr k) (l : ℕ × Leaf (MD L))
    (hle : l ∈ h.leaves) :
    (leafProb (mixP val idx) l.2 e = 0 → l.2.conditional (mixOps L val idx rnd) e = .error .unsatisfiable) ∧
    (leafProb (mixP val idx) l.2 e ≠ 0 → ∃ l', l.2.conditional (mixOps L val idx rnd) e = .ok l' ∧
      l'.parent = none ∧ l'.path = [] ∧ l'.prior = l.2.prior ∧ l'.samples = l.2.samples ∧ l'.rows = l.2.rows ∧
      l'.dists.length = c.vars.length ∧ (∀ v, e.lookup v = none → l'.dists[v]? = l.2.dists[v]?) ∧
      ∀ q, QueryOK (mixFits val) kind c.vars.length q →
        leafProb (mixP val idx) l' q = leafProb (mixP val idx) l.2 (meet q e) / leafProb (mixP val idx) l.2 e) := by
  have hT := learned_mix_on hval hidx hk hdata hfl hl
  obtain ⟨h1, h2⟩ := hT.dists l hle
  obtain ⟨h3, h4⟩ := leaf_conditional (mix_laws_on (L := L) hval hidx rnd) (by
    rintro (k | k) (d | d) r hA hok hfit hP
    · exact hA.elim
    · exact hok.elim
    · exact hok.elim
    · obtain ⟨z, rfl, -⟩ := hfit
      show Except.map _ _ = _
      rw [crop_zero hok.2.2 z hP]
      rfl) h1 h2 he (by
    intro i hi
    obtain ⟨k, hkd⟩ := hdisc i hi
    rw [hkd]
    trivial)
  refine ⟨h3, fun hne => ?_⟩
  obtain ⟨l', g1, g2, g3, g4, g5, g6, g7, g8, g9⟩ := h4 hne
  exact ⟨l', g1, g2, g3, g4, g5, g6, g7, g8, fun q hq => by rw [eq_div_iff hne]; exact g9 q hq⟩

end

/-- The data of `exM`: numbers 0, 2, 4 with labels 0, 0, 1 in the first leaf, numbers 10, 12, 14 with label 1 in the second. -/
example : ∃ h, learn (exM.cfg 6) exMData 6 (fitMix Fun.ival Rat.floor (1 / 100) exMKind exMData) = .ok h ∧
    h.leaves.map (fun l => l.2.rows) = [[0, 1, 2], [3, 4, 5]] ∧
    h.leaves.map (fun l => consistentWith (fullOf (exM.cfg 6)) l.2.path [(0, .single 4), (1, .single 1)])
      = [.ok true, .ok false] ∧
    h.leaves.map (fun l => consistentWith (fullOf (exM.cfg 6)) l.2.path [(1, .range (.set [0])),
      (0, .range (.num ⟨.fin 5, .fin 20, .inc, .exc⟩))]) = [.ok true, .ok true] ∧
    h.leaves.map (fun l => consistentWith (fullOf (exM.cfg 6)) l.2.path
      [(0, .range (.num ⟨.fin 7, .fin 20, .inc, .exc⟩))]) = [.ok false, .ok true] ∧
    h.leaves.map (fun l => l.2.consistentWith (mixOps ℤ Fun.ival Rat.floor Rat.floor)
      [(1, .set [0]), (0, .num ⟨.ninf, .fin 3, .exc, .exc⟩)]) = [.ok true, .ok false] ∧
    h.leaves.map (fun l => ((l.2.conditional (mixOps ℤ Fun.ival Rat.floor Rat.floor) [(1, .set [0])]).toOption.map
      (fun l' => (leafProb (mixP Fun.ival Rat.floor) l' [(1, .set [0])],
        leafProb (mixP Fun.ival Rat.floor) l' [(0, .num ⟨.ninf, .fin 3, .exc, .exc⟩)]))))
      = [some (1, 3 / 4), none] := exists_ok (by decide +kernel)

/-- Evidence with an interval that contains no number (`[a, a)`, `(a, a]` or `(a, a)`, also unbounded on the same side twice)
is impossible in every leaf, whatever the distributions: if the likelihood is returned, it is zero, and the leaf is not
consistent with the evidence. -/
theorem C94_empty_interval {D E : Type} (o : DistOps D E) (l : Leaf D) {e : Query} {v : ℕ} {c : Vars.RI} (hv : (v, Region.num c) ∈ e)
    (hc : c.lower = c.upper) (hb : c.left = .exc ∨ c.right = .exc) :
    (∀ x, l.probability o e = .ok x → x = 0) ∧ (∀ b, l.consistentWith o e = .ok b → b = false) := by
  have key : ∀ (q : Query) (p x : ℚ), q.foldlM (fun p (i : ℕ × Region) => do
      let d ← l.dist i.1
      let x ← factor o d i.2
      return p * x) p = .ok x → (p = 0 ∨ (v, Region.num c) ∈ q) → x = 0 := by
    intro q
    induction q with
    | nil =>
      intro p x h hp
      simp only [List.foldlM_nil, pure, Except.pure, Except.ok.injEq] at h
      rcases hp with hp | hp
      · rw [← h, hp]
      · cases hp
    | cons i q ih =>
      intro p x h hp
      simp only [List.foldlM_cons, bind, Except.bind, pure, Except.pure] at h
      cases hd : l.dist i.1 with
      | error er => rw [hd] at h; cases h
      | ok d =>
        rw [hd] at h
        simp only at h
        cases hf : factor o d i.2 with
        | error er => rw [hf] at h; cases h
        | ok y =>
          rw [hf] at h
          refine ih (p * y) x h ?_
          rcases hp with hp | hp
          · exact Or.inl (by rw [hp, zero_mul])
          · rcases List.mem_cons.1 hp with hp | hp
            · left
              rw [← hp] at hf
              have : riEmpty c = true := by
                unfold riEmpty
                rw [if_pos hc]
                rcases hb with hb | hb <;> simp [hb]
              simp only [factor, this, if_true, Except.ok.injEq] at hf
              rw [← hf, mul_zero]
            · exact Or.inr hp
  have h1 : ∀ x, l.probability o e = .ok x → x = 0 := fun x hx => key e 1 x hx (Or.inr hv)
  refine ⟨h1, fun b hb' => ?_⟩
  unfold Leaf.consistentWith at hb'
  cases hp : l.probability o e with
  | error er => rw [hp] at hb'; cases hb'
  | ok x =>
    rw [hp] at hb'
    simp only [bind, Except.bind, pure, Except.pure, Except.ok.injEq] at hb'
    rw [← hb', h1 x hp]
    simp

/-- In the tree of `exM`: no leaf is consistent with `[4, 4)`. -/
example : ∃ h, learn (exM.cfg 6) exMData 6 (fitMix Fun.ival Rat.floor (1 / 100) exMKind exMData) = .ok h ∧
    h.leaves.map (fun l => l.2.probability (mixOps ℤ Fun.ival Rat.floor Rat.floor)
      [(1, .set [0, 1]), (0, .num ⟨.fin 4, .fin 4, .inc, .exc⟩)]) = [.ok 0, .ok 0] := exists_ok (by decide +kernel)

end Verif.Trees
