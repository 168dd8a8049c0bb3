import Verif.Functions.Lemmas

/-!
# Lemmas about evaluation and simplification of piecewise functions
-/

namespace Verif.Fun

open Iv Iv.FP

namespace PF

theorem hit_fin (n : ℤ) (i : CS) : hit (fin n) i = i.containsValue (fin n) := by
  simp [hit]

theorem atPos_fin_none {p : PF} {n : ℤ} : atPos p (fin n) = none ↔ ¬ p.Covers n := by
  simp only [atPos, Option.map_eq_none_iff, List.find?_eq_none, hit_fin, CS.containsValue_iff,
    Covers, not_exists, not_and]

theorem atPos_fin_some {p : PF} {n : ℤ} {f : Fn} (h : atPos p (fin n) = some f) :
    ∃ s ∈ p, s.1.Mem (fin n) ∧ s.2 = f := by
  simp only [atPos, Option.map_eq_some_iff] at h
  obtain ⟨s, hs, rfl⟩ := h
  refine ⟨s, List.mem_of_find?_eq_some hs, ?_, rfl⟩
  have := List.find?_some hs
  rwa [hit_fin, CS.containsValue_iff] at this

theorem disj_unique {p : PF} (hd : p.Disj) {s t : CS × Fn} {x : FP} (hs : s ∈ p) (ht : t ∈ p)
    (h1 : s.1.Mem x) (h2 : t.1.Mem x) : s = t := by
  induction p with
  | nil => simp at hs
  | cons a p ih =>
    obtain ⟨hd1, hd2⟩ := List.pairwise_cons.1 hd
    rcases List.mem_cons.1 hs with rfl | hs' <;> rcases List.mem_cons.1 ht with rfl | ht'
    · rfl
    · exact absurd ⟨h1, h2⟩ (hd1 t ht' x)
    · exact absurd ⟨h2, h1⟩ (hd1 s hs' x)
    · exact ih hd2 hs' ht'

theorem atPos_of_mem {p : PF} (hd : p.Disj) {s : CS × Fn} {n : ℤ} (hs : s ∈ p)
    (h : s.1.Mem (fin n)) : atPos p (fin n) = some s.2 := by
  cases ha : atPos p (fin n) with
  | none => exact absurd ⟨s, hs, h⟩ (atPos_fin_none.1 ha)
  | some f =>
    obtain ⟨t, ht, hm, rfl⟩ := atPos_fin_some ha
    rw [disj_unique hd hs ht h hm]

theorem eval_ok_iff {val : ℤ → ℚ} {p : PF} (hd : p.Disj) {n : ℤ} {v : Option ℚ} :
    p.eval val n = .ok v ↔ p.Value val n v := by
  unfold eval
  constructor
  · intro h
    cases ha : atPos p (fin n) with
    | none => simp [ha] at h
    | some f =>
      simp only [ha, Except.ok.injEq] at h
      obtain ⟨s, hs, hm, rfl⟩ := atPos_fin_some ha
      exact ⟨s, hs, hm, h⟩
  · rintro ⟨s, hs, hm, rfl⟩
    rw [atPos_of_mem hd hs hm]

theorem eval_error_iff {val : ℤ → ℚ} {p : PF} {n : ℤ} {e : Err} :
    p.eval val n = .error e ↔ e = .attributeError ∧ ¬ p.Covers n := by
  unfold eval
  rw [← atPos_fin_none]
  cases ha : atPos p (fin n) with
  | none => simp [eq_comm]
  | some f => simp

/-- A valid interval with at least one float, open at infinite ends. -/
def Ne (i : CS) : Prop := i.WF ∧ i.Reg ∧ i.isempty = false

instance (i : CS) : Decidable (Ne i) := by unfold Ne; infer_instance

theorem before_of_lt {a b : CS} (h : a.uppermost < b.lowermost) : RS.Before a b :=
  fun _ _ hx hy => lt_of_le_of_lt (CS.le_uppermost hx) (lt_of_lt_of_le h (CS.lowermost_le hy))

theorem Ne.mem {i : CS} (h : Ne i) : ∃ n, i.Mem (fin n) := by
  obtain ⟨x, hx⟩ := CS.exists_mem h.1 h.2.2
  obtain ⟨-, hr, -⟩ := h
  obtain ⟨r1, r2, r3, r4⟩ := hr
  cases x with
  | fin n => exact ⟨n, hx⟩
  | ninf =>
    exfalso
    revert hx; simp only [CS.Mem]
    grind [ninf_le i.lower]
  | pinf =>
    exfalso
    revert hx; simp only [CS.Mem]
    grind [le_pinf i.upper]

theorem norm_ne {i : CS} (h : Norm i) : Ne i := by
  obtain ⟨h1, h2, h3⟩ := h
  obtain ⟨l, u, p, q⟩ := i
  simp only at h1 h2 h3
  subst h2
  rcases h3 with ⟨rfl, rfl⟩ | ⟨h3, rfl⟩
  · refine ⟨le_of_lt h1, ?_, ?_⟩
    · simp only [CS.Reg]; grind
    · cases u <;> simp_all [CS.isempty, CS.itype, FP.lt_def, leb, up, Br.code]
  · refine ⟨le_of_lt h1, ?_, ?_⟩
    · simp only [CS.Reg]
      have := le_pinf u
      have := ninf_le l
      grind
    · have : ¬ l > u := not_lt.2 (le_of_lt h1)
      have : l ≠ u := ne_of_lt h1
      simp [CS.isempty, CS.itype, Br.code, *]

theorem ne_lowermost_le {i : CS} (h : Ne i) : i.lowermost ≤ i.uppermost := by
  obtain ⟨n, hn⟩ := h.mem
  exact le_trans (CS.lowermost_le hn) (CS.le_uppermost hn)

theorem mem_fin_iff {i : CS} (h : i.Reg) (n : ℤ) :
    i.Mem (fin n) ↔ i.lowermost ≤ fin n ∧ fin n ≤ i.uppermost := by
  obtain ⟨r1, r2, r3, r4⟩ := h
  obtain ⟨l, u, p, q⟩ := i
  cases l <;> cases u <;> cases p <;> cases q <;>
    simp_all [CS.Mem, CS.lowermost, CS.uppermost, up, dn, FP.lt_def, FP.le_def, leb] <;> omega

theorem lowermost_ne_pinf {i : CS} (h : i.Reg) : i.lowermost ≠ pinf := by
  obtain ⟨r1, -, -, -⟩ := h
  obtain ⟨l, u, p, q⟩ := i
  cases l <;> cases p <;> simp_all [CS.lowermost, up]

/-- Two disjoint intervals are ordered. -/
theorem comparator_disjoint {a b : CS} (ha : Ne a) (hb : Ne b) (hd : a.Disjoint b) :
    a.uppermost < b.lowermost ∨ b.uppermost < a.lowermost := by
  obtain ⟨n, hn⟩ := ha.mem
  obtain ⟨k, hk⟩ := hb.mem
  have la := ne_lowermost_le ha
  have lb := ne_lowermost_le hb
  have pa := lowermost_ne_pinf ha.2.1
  have pb := lowermost_ne_pinf hb.2.1
  by_contra hc
  simp only [not_or, not_lt] at hc
  obtain ⟨h1, h2⟩ := hc
  have key : ∀ m : ℤ, a.lowermost ≤ fin m → b.lowermost ≤ fin m → fin m ≤ a.uppermost →
      fin m ≤ b.uppermost → False := fun m x1 x2 x3 x4 =>
    hd (fin m) ⟨(mem_fin_iff ha.2.1 m).2 ⟨x1, x3⟩, (mem_fin_iff hb.2.1 m).2 ⟨x2, x4⟩⟩
  rw [mem_fin_iff ha.2.1] at hn
  rw [mem_fin_iff hb.2.1] at hk
  cases hx : a.lowermost with
  | pinf => exact pa hx
  | fin x =>
    cases hy : b.lowermost with
    | pinf => exact pb hy
    | fin y =>
      rw [hx] at key h2 la
      rw [hy] at key h1 lb
      rcases le_total x y with h | h
      · exact key y (by simpa [FP.le_def, leb] using h) le_rfl h1 lb
      · exact key x le_rfl (by simpa [FP.le_def, leb] using h) la h2
    | ninf => exact key x (hx ▸ le_rfl) (hy ▸ ninf_le _) (hx ▸ la) (hx ▸ h2)
  | ninf =>
    cases hy : b.lowermost with
    | pinf => exact pb hy
    | fin y => exact key y (hx ▸ ninf_le _) (hy ▸ le_rfl) (hy ▸ h1) (hy ▸ lb)
    | ninf =>
      rcases le_total n k with h | h
      · have h' : fin n ≤ fin k := by simpa [FP.le_def, leb] using h
        exact key n hn.1 (hy ▸ ninf_le _) hn.2 (le_trans h' hk.2)
      · have h' : fin k ≤ fin n := by simpa [FP.le_def, leb] using h
        exact key k (hx ▸ ninf_le _) hk.1 (le_trans h' hn.2) hk.2

theorem insertSeg_perm {s : CS × Fn} : ∀ {p r : PF}, insertSeg s p = .ok r → r.Perm (s :: p)
  | [], r, h => by cases h; exact List.Perm.refl _
  | t :: p, r, h => by
    simp only [insertSeg, bind, Except.bind] at h
    cases hc : CS.comparator s.1 t.1 with
    | error e => simp [hc] at h
    | ok c =>
      simp only [hc] at h
      split at h
      · cases h; exact List.Perm.refl _
      · cases hi : insertSeg s p with
        | error e => simp [hi] at h
        | ok r' =>
          simp only [hi, Except.ok.injEq] at h
          subst h
          exact ((insertSeg_perm hi).cons t).trans (List.Perm.swap s t p)

theorem sortSegs_perm : ∀ {p r : PF}, sortSegs p = .ok r → r.Perm p
  | [], r, h => by cases h; exact List.Perm.refl _
  | s :: p, r, h => by
    simp only [sortSegs, bind, Except.bind] at h
    cases hs : sortSegs p with
    | error e => simp [hs] at h
    | ok r' =>
      simp only [hs] at h
      exact (insertSeg_perm h).trans ((sortSegs_perm hs).cons s)

/-- The order in which pieces are sorted. -/
def Lt (s t : CS × Fn) : Prop := s.1.uppermost < t.1.lowermost

theorem Lt.trans {s t u : CS × Fn} (h : Ne t.1) (h1 : Lt s t) (h2 : Lt t u) : Lt s u :=
  lt_trans h1 (lt_of_le_of_lt (ne_lowermost_le h) h2)

theorem insertSeg_sorted {s : CS × Fn} (hs : Ne s.1) : ∀ {p r : PF}, (∀ t ∈ p, Ne t.1) →
    p.Pairwise Lt → insertSeg s p = .ok r → r.Pairwise Lt
  | [], r, _, _, h => by cases h; simp
  | t :: p, r, hp, hl, h => by
    obtain ⟨hl1, hl2⟩ := List.pairwise_cons.1 hl
    simp only [insertSeg, bind, Except.bind] at h
    cases hc : CS.comparator s.1 t.1 with
    | error e => simp [hc] at h
    | ok c =>
      simp only [hc] at h
      unfold CS.comparator at hc
      split at h
      · rename_i h0
        cases h
        have hst : Lt s t := by
          unfold Lt
          by_contra hn
          rw [if_neg hn] at hc
          split at hc
          · cases hc; omega
          · simp at hc
        refine List.pairwise_cons.2 ⟨fun u hu => ?_, hl⟩
        rcases List.mem_cons.1 hu with rfl | hu
        · exact hst
        · exact Lt.trans (hp t (by simp)) hst (hl1 u hu)
      · rename_i h0
        cases hi : insertSeg s p with
        | error e => simp [hi] at h
        | ok r' =>
          simp only [hi, Except.ok.injEq] at h
          subst h
          have hts : Lt t s := by
            unfold Lt
            by_contra hn
            split at hc
            · cases hc; omega
            · simp at hc
          have ih := insertSeg_sorted hs (fun u hu => hp u (by simp [hu])) hl2 hi
          refine List.pairwise_cons.2 ⟨fun u hu => ?_, ih⟩
          rcases List.mem_cons.1 ((insertSeg_perm hi).mem_iff.1 hu) with rfl | hu
          · exact hts
          · exact hl1 u hu

theorem sortSegs_sorted : ∀ {p r : PF}, (∀ t ∈ p, Ne t.1) → sortSegs p = .ok r → r.Pairwise Lt
  | [], r, _, h => by cases h; simp
  | s :: p, r, hp, h => by
    simp only [sortSegs, bind, Except.bind] at h
    cases hs : sortSegs p with
    | error e => simp [hs] at h
    | ok r' =>
      simp only [hs] at h
      refine insertSeg_sorted (hp s (by simp)) (fun t ht => ?_)
        (sortSegs_sorted (fun t ht => hp t (by simp [ht])) hs) h
      exact hp t (by simp [(sortSegs_perm hs).mem_iff.1 ht])

theorem insertSeg_ok {s : CS × Fn} (hs : Ne s.1) : ∀ {p : PF}, (∀ t ∈ p, Ne t.1) →
    (∀ t ∈ p, s.1.Disjoint t.1) → ∃ r, insertSeg s p = .ok r
  | [], _, _ => ⟨_, rfl⟩
  | t :: p, hp, hd => by
    obtain ⟨r', hr'⟩ := insertSeg_ok hs (p := p) (fun u hu => hp u (by simp [hu]))
      (fun u hu => hd u (by simp [hu]))
    simp only [insertSeg, bind, Except.bind]
    rcases comparator_disjoint hs (hp t (by simp)) (hd t (by simp)) with h | h
    · have : CS.comparator s.1 t.1 = .ok (-1) := by simp [CS.comparator, h]
      exact ⟨_, by rw [this]; rfl⟩
    · by_cases h2 : s.1.uppermost < t.1.lowermost
      · have : CS.comparator s.1 t.1 = .ok (-1) := by simp [CS.comparator, h2]
        exact ⟨_, by rw [this]; rfl⟩
      · have : CS.comparator s.1 t.1 = .ok 1 := by simp [CS.comparator, h2, h]
        exact ⟨t :: r', by rw [this]; simp [hr']⟩

theorem Disj.tail {s : CS × Fn} {p : PF} (h : Disj (s :: p)) : p.Disj := (List.pairwise_cons.1 h).2

theorem sortSegs_ok : ∀ {p : PF}, (∀ t ∈ p, Ne t.1) → p.Disj → ∃ r, sortSegs p = .ok r
  | [], _, _ => ⟨[], rfl⟩
  | s :: p, hp, hd => by
    obtain ⟨r', hr'⟩ := sortSegs_ok (fun t ht => hp t (by simp [ht])) hd.tail
    have hperm := sortSegs_perm hr'
    obtain ⟨r, hr⟩ := insertSeg_ok (hp s (by simp)) (p := r')
      (fun t ht => hp t (by simp [hperm.mem_iff.1 ht]))
      (fun t ht => (List.pairwise_cons.1 hd).1 t (hperm.mem_iff.1 ht))
    exact ⟨r, by simp [sortSegs, bind, Except.bind, hr', hr]⟩

theorem Lt.before {s t : CS × Fn} (h : Lt s t) : RS.Before s.1 t.1 := before_of_lt h

theorem sorted_disj {p : PF} (h : p.Pairwise (fun s t => RS.Before s.1 t.1)) : p.Disj :=
  h.imp (fun hb x hx => lt_irrefl _ (hb x x hx.1 hx.2))

/-- The loop of `simplify` keeps the values. -/
theorem simplifyLoop_spec {val : ℤ → ℚ} : ∀ {p : PF} {last : CS × Fn} {r : PF},
    (∀ s ∈ last :: p, Ne s.1) → (last :: p).Pairwise (fun s t => RS.Before s.1 t.1) →
    simplifyLoop last p = .ok r →
    (∀ n v, Value val r n v ↔ Value val (last :: p) n v) ∧ (∀ s ∈ r, Ne s.1) ∧
      r.Pairwise (fun s t => RS.Before s.1 t.1) ∧
      (∀ s ∈ r, ∀ x, s.1.Mem x → ∃ t ∈ last :: p, t.1.Mem x)
  | [], last, r, h, hp, e => by
    cases e; exact ⟨fun _ _ => Iff.rfl, h, hp, fun s hs x hx => ⟨s, hs, hx⟩⟩
  | (i, f) :: p, last, r, h, hp, e => by
    obtain ⟨hp1, hp2⟩ := List.pairwise_cons.1 hp
    obtain ⟨hp3, hp4⟩ := List.pairwise_cons.1 hp2
    have hi : Ne i := h (i, f) (by simp)
    have hb : RS.Before last.1 i := hp1 (i, f) (by simp)
    simp only [simplifyLoop, hi.2.2, Bool.false_eq_true, if_false] at e
    have keep : ∀ r', simplifyLoop (i, f) p = .ok r' → r = last :: r' →
        (∀ n v, Value val r n v ↔ Value val (last :: (i, f) :: p) n v) ∧ (∀ s ∈ r, Ne s.1) ∧
        r.Pairwise (fun s t => RS.Before s.1 t.1) ∧
        (∀ s ∈ r, ∀ x, s.1.Mem x → ∃ t ∈ last :: (i, f) :: p, t.1.Mem x) := by
      rintro r' hr' rfl
      obtain ⟨i1, i2, i3, i4⟩ := simplifyLoop_spec (val := val)
        (fun s hs => h s (List.mem_cons_of_mem _ hs)) hp2 hr'
      refine ⟨fun n v => ?_, ?_, ?_, ?_⟩
      · have := i1 n v
        simp only [Value, List.mem_cons, exists_eq_or_imp] at this ⊢
        rw [this]
      · intro s hs
        rcases List.mem_cons.1 hs with rfl | hs
        · exact h s (by simp)
        · exact i2 s hs
      · refine List.pairwise_cons.2 ⟨fun s hs x y hx hy => ?_, i3⟩
        obtain ⟨t, ht, hty⟩ := i4 s hs y hy
        exact hp1 t ht x y hx hty
      · intro s hs x hx
        rcases List.mem_cons.1 hs with rfl | hs
        · exact ⟨s, by simp, hx⟩
        · obtain ⟨t, ht, htx⟩ := i4 s hs x hx
          exact ⟨t, List.mem_cons_of_mem _ ht, htx⟩
    split at e
    · rename_i hc
      cases hq : f.eq last.2 with
      | error er => simp [hq] at e
      | ok b =>
        cases b with
        | false =>
          simp only [hq] at e
          cases hr : simplifyLoop (i, f) p with
          | error er => simp [hr, Except.map] at e
          | ok r' => simp only [hr, Except.map, Except.ok.injEq] at e; exact keep r' hr e.symm
        | true =>
          simp only [hq] at e
          have hl : Ne last.1 := h last (by simp)
          have hcc : last.1.contiguous i = true := by rw [CS.contiguous_comm]; exact hc
          have hm := RS.contiguous_merge hcc ⟨hl.1, hl.2.2⟩ ⟨hi.1, hi.2.2⟩ hb
          obtain ⟨n0, hn0⟩ := hl.mem
          have hne0 := (hm (fin n0)).2 (.inl hn0)
          have hmne : Ne { last.1 with upper := i.upper, right := i.right } := by
            refine ⟨CS.wf_of_mem hne0, ?_, CS.isempty_false_of_mem hne0⟩
            exact ⟨hl.2.1.1, hi.2.1.2.1, hl.2.1.2.2.1, hi.2.1.2.2.2⟩
          obtain ⟨i1, i2, i3, i4⟩ := simplifyLoop_spec (val := val)
            (last := ({ last.1 with upper := i.upper, right := i.right }, last.2)) (p := p)
            (fun s hs => by
              rcases List.mem_cons.1 hs with rfl | hs
              · exact hmne
              · exact h s (by simp [hs]))
            (List.pairwise_cons.2 ⟨fun s hs x y hx hy => by
              rcases (hm x).1 hx with hx | hx
              · exact hp1 s (by simp [hs]) x y hx hy
              · exact hp3 s hs x y hx hy, hp4⟩) e
          refine ⟨fun n v => ?_, i2, i3, ?_⟩
          · have := i1 n v
            have he := Fn.eq_eval hq (val n)
            simp only [Value, List.mem_cons, exists_eq_or_imp] at this ⊢
            rw [this, hm, he]
            grind
          · intro s hs x hx
            obtain ⟨t, ht, htx⟩ := i4 s hs x hx
            rcases List.mem_cons.1 ht with rfl | ht
            · rcases (hm x).1 htx with h' | h'
              · exact ⟨last, by simp, h'⟩
              · exact ⟨(i, f), by simp, h'⟩
            · exact ⟨t, by simp [ht], htx⟩
    · cases hr : simplifyLoop (i, f) p with
      | error er => simp [hr, Except.map] at e
      | ok r' => simp only [hr, Except.map, Except.ok.injEq] at e; exact keep r' hr e.symm

theorem value_perm {val : ℤ → ℚ} {p q : PF} (h : p.Perm q) (n : ℤ) (v : Option ℚ) :
    Value val p n v ↔ Value val q n v := by
  simp only [Value, h.mem_iff]

/-- `simplify` keeps the values. -/
theorem simplify_spec {val : ℤ → ℚ} {p r : PF} (h : ∀ s ∈ p, Ne s.1) (e : simplify p = .ok r) :
    (∀ n v, Value val r n v ↔ Value val p n v) ∧ (∀ s ∈ r, Ne s.1) ∧
      r.Pairwise (fun s t => RS.Before s.1 t.1) := by
  simp only [simplify, bind, Except.bind] at e
  cases hs : sortSegs p with
  | error er => simp [hs] at e
  | ok q =>
    simp only [hs] at e
    have hperm := sortSegs_perm hs
    have hl := (sortSegs_sorted h hs).imp Lt.before
    have hq : ∀ s ∈ q, Ne s.1 := fun s hs => h s (hperm.mem_iff.1 hs)
    cases q with
    | nil =>
      cases e
      exact ⟨fun n v => value_perm hperm n v, by simp, by simp⟩
    | cons a q =>
      obtain ⟨i, f⟩ := a
      simp only [simplifyStart, (hq (i, f) (by simp)).2.2, Bool.false_eq_true, if_false] at e
      obtain ⟨i1, i2, i3, -⟩ := simplifyLoop_spec (val := val) hq hl e
      exact ⟨fun n v => (i1 n v).trans (value_perm hperm n v), i2, i3⟩

theorem simplifyLoop_ok : ∀ {p : PF} {last : CS × Fn},
    (∀ s ∈ last :: p, ∀ t ∈ last :: p, ∃ b, s.2.eq t.2 = .ok b) →
    ∃ r, simplifyLoop last p = .ok r
  | [], _, _ => ⟨_, rfl⟩
  | (i, f) :: p, last, h => by
    have h1 : ∃ r, simplifyLoop last p = .ok r := simplifyLoop_ok (fun s hs t ht => h s (by grind) t (by grind))
    obtain ⟨r, hr⟩ : ∃ r, simplifyLoop (i, f) p = .ok r :=
      simplifyLoop_ok (fun s hs t ht => h s (by grind) t (by grind))
    obtain ⟨r', hr'⟩ : ∃ r, simplifyLoop ({ last.1 with upper := i.upper, right := i.right }, last.2) p
        = .ok r := by
      refine simplifyLoop_ok (fun s hs t ht => ?_)
      rcases List.mem_cons.1 hs with rfl | hs <;> rcases List.mem_cons.1 ht with rfl | ht
      · exact h last (by simp) last (by simp)
      · exact h last (by simp) t (by simp [ht])
      · exact h s (by simp [hs]) last (by simp)
      · exact h s (by simp [hs]) t (by simp [ht])
    obtain ⟨b, hb⟩ := h (i, f) (by simp) last (by simp)
    simp only [simplifyLoop, hb, hr, hr', Except.map]
    split
    · exact h1
    · split
      · cases b <;> exact ⟨_, rfl⟩
      · exact ⟨_, rfl⟩

/-- `simplify` returns when the pieces are disjoint, not empty, and comparable. -/
theorem simplify_ok {p : PF} (h : ∀ s ∈ p, Ne s.1) (hd : p.Disj)
    (hc : ∀ s ∈ p, ∀ t ∈ p, ∃ b, s.2.eq t.2 = .ok b) : ∃ r, simplify p = .ok r := by
  obtain ⟨q, hq⟩ := sortSegs_ok h hd
  have hperm := sortSegs_perm hq
  simp only [simplify, bind, Except.bind, hq]
  have aux : ∀ q : PF, (∀ s ∈ q, ∀ t ∈ q, ∃ b, s.2.eq t.2 = .ok b) → ∃ r, simplifyStart q = .ok r := by
    intro q
    induction q with
    | nil => exact fun _ => ⟨_, rfl⟩
    | cons a q ih =>
      intro hc
      obtain ⟨i, f⟩ := a
      simp only [simplifyStart]
      split
      · exact ih (fun s hs t ht => hc s (by simp [hs]) t (by simp [ht]))
      · exact simplifyLoop_ok hc
  exact aux q (fun s hs t ht => hc s (hperm.mem_iff.1 hs) t (hperm.mem_iff.1 ht))

end PF
end Verif.Fun
