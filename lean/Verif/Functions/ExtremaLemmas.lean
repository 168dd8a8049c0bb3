import Verif.Functions.Extrema
import Verif.Functions.Lemmas8
import Verif.ListAux
import Mathlib.Tactic.Linarith
import Mathlib.Data.List.Pairwise

/-!
# Lemmas about `maximize`
-/

namespace Verif.Fun

open Iv Iv.FP

namespace PF

variable {val : ℤ → ℚ} {p : PF}

/-- Two pieces with a common position are the same. -/
theorem piece_unique (hp : ∀ s ∈ p, s.1.HalfOpen) (hd : p.Pairwise (fun s t => CS.Disjoint s.1 t.1)) {s t : CS × Fn}
    (hs : s ∈ p) (ht : t ∈ p) {b : FP} (h1 : hit b s.1 = true) (h2 : hit b t.1 = true) : s = t := by
  by_contra hne
  have hsym : ∀ x ∈ p, ∀ y ∈ p, x ≠ y → CS.Disjoint x.1 y.1 := by
    intro x hx y hy hxy
    have : Std.Symm (fun s t : CS × Fn => CS.Disjoint s.1 t.1) := ⟨fun a b h x hx => h x ⟨hx.2, hx.1⟩⟩
    exact hd.forall hx hy hxy
  have hdis := hsym s hs t ht hne
  have hls := (hp s hs)
  have hlt := (hp t ht)
  cases b with
  | fin n =>
    rw [hit_fin, CS.containsValue_iff] at h1 h2
    exact hdis _ ⟨h1, h2⟩
  | ninf =>
    rw [hit_ninf hls] at h1
    rw [hit_ninf hlt] at h2
    obtain ⟨n, hn⟩ : ∃ n : ℤ, fin n < s.1.upper ∧ fin n < t.1.upper := by
      have a1 := hls.1
      have a2 := hlt.1
      rw [h1] at a1
      rw [h2] at a2
      cases hu : s.1.upper with
      | ninf => rw [hu] at a1; exact absurd a1 (lt_irrefl _)
      | pinf =>
        cases hv : t.1.upper with
        | ninf => rw [hv] at a2; exact absurd a2 (lt_irrefl _)
        | pinf => exact ⟨0, by simp [FP.lt_def, leb]⟩
        | fin k => exact ⟨k - 1, by simp [FP.lt_def, leb]⟩
      | fin j =>
        cases hv : t.1.upper with
        | ninf => rw [hv] at a2; exact absurd a2 (lt_irrefl _)
        | pinf => exact ⟨j - 1, by simp [FP.lt_def, leb]⟩
        | fin k => exact ⟨min j k - 1, by simp [FP.lt_def, leb]; omega⟩
    refine hdis (fin n) ⟨(hls.mem_iff n).2 ⟨?_, hn.1⟩, (hlt.mem_iff n).2 ⟨?_, hn.2⟩⟩
    · rw [h1]; simp [FP.le_def, leb]
    · rw [h2]; simp [FP.le_def, leb]
  | pinf =>
    rw [hit_pinf hls] at h1
    rw [hit_pinf hlt] at h2
    obtain ⟨n, hn⟩ : ∃ n : ℤ, s.1.lower ≤ fin n ∧ t.1.lower ≤ fin n := by
      have a1 := hls.1
      have a2 := hlt.1
      rw [h1] at a1
      rw [h2] at a2
      cases hu : s.1.lower with
      | pinf => rw [hu] at a1; exact absurd a1 (lt_irrefl _)
      | ninf =>
        cases hv : t.1.lower with
        | pinf => rw [hv] at a2; exact absurd a2 (lt_irrefl _)
        | ninf => exact ⟨0, by simp [FP.le_def, leb]⟩
        | fin k => exact ⟨k, by simp [FP.le_def, leb]⟩
      | fin j =>
        cases hv : t.1.lower with
        | pinf => rw [hv] at a2; exact absurd a2 (lt_irrefl _)
        | ninf => exact ⟨j, by simp [FP.le_def, leb]⟩
        | fin k => exact ⟨max j k, by simp [FP.le_def, leb]⟩
    refine hdis (fin n) ⟨(hls.mem_iff n).2 ⟨hn.1, ?_⟩, (hlt.mem_iff n).2 ⟨hn.2, ?_⟩⟩
    · rw [h1]; simp [FP.lt_def, leb]
    · rw [h2]; simp [FP.lt_def, leb]

theorem pieceAt_own (hp : ∀ s ∈ p, s.1.HalfOpen) (hd : p.Pairwise (fun s t => CS.Disjoint s.1 t.1)) {s : CS × Fn}
    (hs : s ∈ p) {b : FP} (hb : hit b s.1 = true) : p.find? (fun t => hit b t.1) = some s ∧ pieceAt p b = some s := by
  have h1 : p.find? (fun t => hit b t.1) = some s := by
    cases hf : p.find? (fun t => hit b t.1) with
    | none =>
      rw [List.find?_eq_none] at hf
      exact absurd hb (hf s hs)
    | some t =>
      have h2 := List.find?_some hf
      have h3 := List.mem_of_find?_eq_some hf
      rw [piece_unique hp hd hs h3 hb h2]
  refine ⟨h1, ?_⟩
  unfold pieceAt
  rw [h1]

/-- The least and the greatest float of a piece lie in it. -/
theorem hit_lowermost {i : CS} (h : i.HalfOpen) : hit i.lowermost i = true := by
  rw [h.lowermost]
  obtain ⟨a, b, l, r⟩ := i
  obtain ⟨h1, h2, h3⟩ := h
  simp only at h1 h2 h3
  cases a with
  | ninf => rw [hit_ninf ⟨h1, h2, h3⟩]
  | pinf => cases b <;> simp [FP.lt_def, leb] at h1
  | fin n =>
    rw [hit_fin, CS.containsValue_iff, CS.HalfOpen.mem_iff ⟨h1, h2, h3⟩]
    exact ⟨le_refl _, h1⟩

theorem hit_uppermost {i : CS} (h : i.HalfOpen) : hit i.uppermost i = true := by
  rw [h.uppermost]
  obtain ⟨a, b, l, r⟩ := i
  obtain ⟨h1, h2, h3⟩ := h
  simp only at h1 h2 h3
  cases b with
  | pinf => show hit pinf _ = true; rw [hit_pinf ⟨h1, h2, h3⟩]
  | ninf => cases a <;> simp [FP.lt_def, leb] at h1
  | fin n =>
    show hit (fin (n - 1)) _ = true
    rw [hit_fin, CS.containsValue_iff, CS.HalfOpen.mem_iff ⟨h1, h2, h3⟩]
    simp only
    refine ⟨?_, by simp [FP.lt_def, leb]⟩
    cases a with
    | ninf => simp [FP.le_def, leb]
    | pinf => simp [FP.lt_def, leb] at h1
    | fin m => simp [FP.lt_def, FP.le_def, leb] at h1 ⊢; omega

/-- The union with a further interval. -/
theorem nsUnion_cs {A : NS} (hA : Normal A) (nA : ∃ n : ℤ, A.Mem (fin n)) {b : CS} (hb : b.HalfOpen) :
    ∃ D, nsUnion A (.cs b) = .ok D ∧ (∀ x, D.Mem x ↔ A.Mem x ∨ b.Mem x) ∧ Normal D := by
  have hA' := all_pieces.1 (hA.2.2 nA)
  cases A with
  | cs a => exact cs_union_normal (hA' a (by simp [RS.pieces])) hb
  | rs l =>
    obtain ⟨D, h1, h2, h3⟩ := simplify_normal (l := l ++ [b]) (by
      intro s hs
      rcases List.mem_append.1 hs with hs | hs
      · exact .inl (hA' s (by simpa [RS.pieces] using hs))
      · rw [List.mem_singleton.1 hs]; exact .inl hb)
    refine ⟨D, h1, fun x => ?_, h3⟩
    rw [h2, RS.mem_append]
    simp [RS.Mem, NS.Mem]

/-- The value that is compared at the position `b`. -/
def valueAt (val : ℤ → ℚ) (p : PF) (b : FP) : Fn.Fl :=
  match p.find? (fun s => hit b s.1) with
  | some s => s.2.evalAt val b
  | none => none

theorem valueAt_own (hp : ∀ s ∈ p, s.1.HalfOpen) (hd : p.Pairwise (fun s t => CS.Disjoint s.1 t.1)) {s : CS × Fn}
    (hs : s ∈ p) {b : FP} (hb : hit b s.1 = true) : valueAt val p b = s.2.evalAt val b := by
  unfold valueAt
  rw [(pieceAt_own hp hd hs hb).1]

/-- What holds after some rounds. -/
def Highest (val : ℤ → ℚ) (p : PF) (seen : List FP) (s : NS × Fn.Fl) : Prop :=
  match s.2 with
  | none => ∀ b ∈ seen, valueAt val p b = none
  | some y => (∀ b ∈ seen, ∀ z, valueAt val p b = some z → z.le y = true) ∧ ∃ b ∈ seen, valueAt val p b = some y

theorem le_of_not_le {a b : XQ} (h : (!a.le b) = false) : a.le b = true := by
  cases h' : a.le b with
  | true => rfl
  | false => rw [h'] at h; cases h

theorem XQ.le_refl' (a : XQ) : a.le a = true := by cases a <;> simp [XQ.le]

theorem XQ.le_trans' {a b c : XQ} (h1 : a.le b = true) (h2 : b.le c = true) : a.le c = true := by
  cases a <;> cases b <;> cases c <;> simp_all [XQ.le]
  exact le_trans h1 h2

theorem XQ.le_total' {a b : XQ} (h : (!a.le b) = true) : b.le a = true := by
  cases a <;> cases b <;> simp_all [XQ.le]
  exact le_of_lt h

theorem XQ.le_antisymm' {a b : XQ} (h1 : a.le b = true) (h2 : b.le a = true) : a = b := by
  cases a <;> cases b <;> simp_all [XQ.le]
  exact le_antisymm h1 h2

/-- One round keeps it. -/
theorem maxStep_highest (hp : ∀ s ∈ p, s.1.HalfOpen) (hd : p.Pairwise (fun s t => CS.Disjoint s.1 t.1)) {seen : List FP}
    {st st' : NS × Fn.Fl} (hst : Highest val p seen st) {s : CS × Fn} (hs : s ∈ p) {b : FP} (hb : hit b s.1 = true)
    (h : maxStep val p st b = .ok st') : Highest val p (seen ++ [b]) st' := by
  have hv := valueAt_own (val := val) hp hd hs hb
  unfold maxStep at h
  rw [(pieceAt_own hp hd hs hb).2] at h
  obtain ⟨A, v⟩ := st
  obtain ⟨i, f⟩ := s
  simp only at h hv
  cases he : f.evalAt val b with
  | none =>
    rw [he] at h hv
    simp only at h
    cases h
    unfold Highest at hst ⊢
    cases v with
    | none =>
      intro c hc
      rcases List.mem_append.1 hc with hc | hc
      · exact hst c hc
      · rw [List.mem_singleton.1 hc]; exact hv
    | some y =>
      refine ⟨?_, ?_⟩
      · intro c hc z hz
        rcases List.mem_append.1 hc with hc | hc
        · exact hst.1 c hc z hz
        · rw [List.mem_singleton.1 hc, hv] at hz; cases hz
      · obtain ⟨c, hc, hz⟩ := hst.2
        exact ⟨c, by simp [hc], hz⟩
  | some y =>
    rw [he] at h hv
    simp only at h
    by_cases hlt : Option.any (fun m => !m.le y) v = true
    · rw [if_pos hlt] at h
      cases h
      cases v with
      | none => simp at hlt
      | some m =>
        simp only [Option.any_some] at hlt
        unfold Highest at hst ⊢
        refine ⟨?_, ?_⟩
        · intro c hc z hz
          rcases List.mem_append.1 hc with hc | hc
          · exact hst.1 c hc z hz
          · rw [List.mem_singleton.1 hc, hv] at hz
            cases hz
            exact XQ.le_total' hlt
        · obtain ⟨c, hc, hz⟩ := hst.2
          exact ⟨c, by simp [hc], hz⟩
    · rw [if_neg hlt] at h
      have hres : st'.2 = some y := by
        clear hv he hst
        simp only [bind, Except.bind] at h
        grind
      have hle : ∀ c ∈ seen, ∀ z, valueAt val p c = some z → z.le y = true := by
        intro c hc z hz
        unfold Highest at hst
        cases v with
        | none => rw [hst c hc] at hz; cases hz
        | some m =>
          simp only [Option.any_some, Bool.not_eq_true] at hlt
          exact XQ.le_trans' (hst.1 c hc z hz) (le_of_not_le hlt)
      unfold Highest
      rw [hres]
      refine ⟨?_, b, by simp, hv⟩
      intro c hc z hz
      rcases List.mem_append.1 hc with hc | hc
      · exact hle c hc z hz
      · rw [List.mem_singleton.1 hc, hv] at hz
        cases hz
        exact XQ.le_refl' _

theorem fold_highest (hp : ∀ s ∈ p, s.1.HalfOpen) (hd : p.Pairwise (fun s t => CS.Disjoint s.1 t.1)) :
    ∀ (bs seen : List FP) (st st' : NS × Fn.Fl), Highest val p seen st → (∀ b ∈ bs, ∃ s ∈ p, hit b s.1 = true) →
      bs.foldlM (maxStep val p) st = .ok st' → Highest val p (seen ++ bs) st'
  | [], seen, st, st', h, _, e => by
    cases e
    simpa using h
  | b :: bs, seen, st, st', h, hb, e => by
    rw [List.foldlM_cons] at e
    simp only [bind, Except.bind] at e
    cases h1 : maxStep val p st b with
    | error x => rw [h1] at e; cases e
    | ok st1 =>
      rw [h1] at e
      obtain ⟨s, hs, hit⟩ := hb b (by simp)
      have := fold_highest hp hd bs (seen ++ [b]) st1 st' (maxStep_highest hp hd h hs hit h1)
        (fun c hc => hb c (by simp [hc])) e
      simpa using this

/-- What holds after some rounds if all pieces are constant or undefined. -/
def Modes (seen : List (CS × Fn)) (s : NS × Fn.Fl) : Prop :=
  match s.2 with
  | none => s.1 = .cs .emptyset ∧ ∀ t ∈ seen, t.2 = .undef
  | some y => ∃ m, y = .fin m ∧ (∀ t ∈ seen, ∀ c, t.2 = .const c → c ≤ m) ∧ (∃ t ∈ seen, t.2 = .const m) ∧
      (∀ x, s.1.Mem x ↔ ∃ t ∈ seen, t.2 = .const m ∧ t.1.Mem x) ∧ Normal s.1

theorem normal_cs {i : CS} (h : i.HalfOpen) : Normal (.cs i) :=
  ⟨by simp [RS.pieces], .inl h, fun _ => h⟩

theorem HalfOpen.exists_fin {i : CS} (h : i.HalfOpen) : ∃ n : ℤ, i.Mem (fin n) := by
  obtain ⟨a, b, l, r⟩ := i
  have h1 := h.1
  simp only at h1
  have key : ∀ n : ℤ, a ≤ fin n → fin n < b → ∃ n : ℤ, CS.Mem ⟨a, b, l, r⟩ (fin n) :=
    fun n h1 h2 => ⟨n, (h.mem_iff n).2 ⟨h1, h2⟩⟩
  cases a with
  | fin n => exact key n (le_refl _) h1
  | pinf => cases b <;> simp [FP.lt_def, leb] at h1
  | ninf =>
    cases b with
    | ninf => exact absurd h1 (lt_irrefl _)
    | pinf => exact key 0 (by simp [FP.le_def, leb]) (by simp [FP.lt_def, leb])
    | fin n => exact key (n - 1) (by simp [FP.le_def, leb]) (by simp [FP.lt_def, leb])

theorem maxStep_modes (hp : ∀ s ∈ p, s.1.HalfOpen) (hd : p.Pairwise (fun s t => CS.Disjoint s.1 t.1))
    {seen : List (CS × Fn)} (hseen : ∀ t ∈ seen, t.1.HalfOpen) {st : NS × Fn.Fl} (hst : Modes seen st) {s : CS × Fn}
    (hs : s ∈ p) (hc : s.2 = .undef ∨ ∃ c, s.2 = .const c) {b : FP} (hb : hit b s.1 = true) :
    ∃ st', maxStep val p st b = .ok st' ∧ Modes (seen ++ [s]) st' := by
  unfold maxStep
  rw [(pieceAt_own hp hd hs hb).2]
  have hho := hp s hs
  obtain ⟨A, v⟩ := st
  obtain ⟨i, f⟩ := s
  simp only at hc ⊢ hho
  rcases hc with rfl | ⟨c, rfl⟩
  · refine ⟨_, rfl, ?_⟩
    unfold Modes at hst ⊢
    cases v with
    | none =>
      refine ⟨hst.1, ?_⟩
      intro t ht
      rcases List.mem_append.1 ht with ht | ht
      · exact hst.2 t ht
      · rw [List.mem_singleton.1 ht]
    | some y =>
      obtain ⟨m, rfl, h1, ⟨t, ht, h2⟩, h3, h4⟩ := hst
      refine ⟨m, rfl, ?_, ⟨t, by simp [ht], h2⟩, ?_, h4⟩
      · intro t ht c hc
        rcases List.mem_append.1 ht with ht | ht
        · exact h1 t ht c hc
        · rw [List.mem_singleton.1 ht] at hc; cases hc
      · intro x
        rw [h3 x]
        constructor
        · rintro ⟨t, ht, h5⟩
          exact ⟨t, by simp [ht], h5⟩
        · rintro ⟨t, ht, h5, h6⟩
          rcases List.mem_append.1 ht with ht | ht
          · exact ⟨t, ht, h5, h6⟩
          · rw [List.mem_singleton.1 ht] at h5; cases h5
  · have hev : Fn.evalAt val (.const c) b = some (.fin c) := by cases b <;> rfl
    rw [hev]
    simp only
    by_cases hlt : Option.any (fun m => !m.le (.fin c)) v = true
    · rw [if_pos hlt]
      refine ⟨_, rfl, ?_⟩
      cases v with
      | none => simp at hlt
      | some y =>
        unfold Modes at hst ⊢
        obtain ⟨m, rfl, h1, ⟨t, ht, h2⟩, h3, h4⟩ := hst
        have hcm : c < m := by simpa [XQ.le] using hlt
        refine ⟨m, rfl, ?_, ⟨t, by simp [ht], h2⟩, ?_, h4⟩
        · intro t ht d hd'
          rcases List.mem_append.1 ht with ht | ht
          · exact h1 t ht d hd'
          · rw [List.mem_singleton.1 ht] at hd'; cases hd'; exact hcm.le
        · intro x
          rw [h3 x]
          constructor
          · rintro ⟨t, ht, h5⟩
            exact ⟨t, by simp [ht], h5⟩
          · rintro ⟨t, ht, h5, h6⟩
            rcases List.mem_append.1 ht with ht | ht
            · exact ⟨t, ht, h5, h6⟩
            · rw [List.mem_singleton.1 ht] at h5; cases h5; exact absurd hcm (lt_irrefl _)
    · rw [if_neg hlt]
      by_cases heq : v = some (.fin c)
      · subst heq
        unfold Modes at hst
        obtain ⟨m, hm, h1, ⟨t, ht, h2⟩, h3, h4⟩ := hst
        cases hm
        have hne : ∃ n : ℤ, A.Mem (fin n) := by
          obtain ⟨n, hn⟩ := HalfOpen.exists_fin (hseen t ht)
          exact ⟨n, (h3 _).2 ⟨t, ht, h2, hn⟩⟩
        obtain ⟨D, hD, hm, hN⟩ := nsUnion_cs h4 hne hho
        refine ⟨(D, some (.fin c)), ?_, ?_⟩
        · simp only [bind, Except.bind, if_true]
          rw [hD]
        · unfold Modes
          refine ⟨c, rfl, ?_, ⟨t, by simp [ht], h2⟩, ?_, hN⟩
          · intro t ht d hd'
            rcases List.mem_append.1 ht with ht | ht
            · exact h1 t ht d hd'
            · rw [List.mem_singleton.1 ht] at hd'; cases hd'; exact le_refl _
          · intro x
            show D.Mem x ↔ _
            rw [hm x, show (A.Mem x ↔ _) from h3 x]
            constructor
            · rintro (⟨t, ht, h5⟩ | h5)
              · exact ⟨t, by simp [ht], h5⟩
              · exact ⟨(i, .const c), by simp, rfl, h5⟩
            · rintro ⟨t, ht, h5, h6⟩
              rcases List.mem_append.1 ht with ht | ht
              · exact .inl ⟨t, ht, h5, h6⟩
              · rw [List.mem_singleton.1 ht] at h6; exact .inr h6
      · refine ⟨(.cs i, some (.fin c)), ?_, ?_⟩
        · simp only [bind, Except.bind]
          rw [if_neg heq]
        · have hbelow : ∀ t ∈ seen, ∀ d, t.2 = .const d → d < c := by
            intro t ht d hd'
            unfold Modes at hst
            cases v with
            | none => rw [hst.2 t ht] at hd'; cases hd'
            | some y =>
              obtain ⟨m, rfl, h1, -⟩ := hst
              have h5 : m ≤ c := by simpa [XQ.le] using hlt
              have h6 : m ≠ c := fun e => heq (by rw [e])
              exact lt_of_le_of_lt (h1 t ht d hd') (lt_of_le_of_ne h5 h6)
          unfold Modes
          refine ⟨c, rfl, ?_, ⟨(i, .const c), by simp, rfl⟩, ?_, normal_cs hho⟩
          · intro t ht d hd'
            rcases List.mem_append.1 ht with ht | ht
            · exact (hbelow t ht d hd').le
            · rw [List.mem_singleton.1 ht] at hd'; cases hd'; exact le_refl _
          · intro x
            constructor
            · intro hx
              exact ⟨(i, .const c), by simp, rfl, hx⟩
            · rintro ⟨t, ht, h5, h6⟩
              rcases List.mem_append.1 ht with ht | ht
              · exact absurd (hbelow t ht c h5) (lt_irrefl _)
              · rw [List.mem_singleton.1 ht] at h6; exact h6

theorem fold_modes (hp : ∀ s ∈ p, s.1.HalfOpen) (hd : p.Pairwise (fun s t => CS.Disjoint s.1 t.1))
    (hc : ∀ s ∈ p, s.2 = .undef ∨ ∃ c, s.2 = .const c) (g : CS × Fn → FP) (hg : ∀ s ∈ p, hit (g s) s.1 = true) :
    ∀ (ss seen : List (CS × Fn)) (st : NS × Fn.Fl), (∀ s ∈ ss, s ∈ p) → (∀ t ∈ seen, t.1.HalfOpen) → Modes seen st →
      ∃ st', (ss.map g).foldlM (maxStep val p) st = .ok st' ∧ Modes (seen ++ ss) st'
  | [], seen, st, _, _, h => ⟨st, rfl, by simpa using h⟩
  | s :: ss, seen, st, hss, hseen, h => by
    obtain ⟨st1, h1, h2⟩ := maxStep_modes (val := val) hp hd hseen h (hss s (by simp)) (hc s (hss s (by simp)))
      (hg s (hss s (by simp)))
    obtain ⟨st', h3, h4⟩ := fold_modes hp hd hc g hg ss (seen ++ [s]) st1 (fun t ht => hss t (by simp [ht]))
      (by
        intro t ht
        rcases List.mem_append.1 ht with ht | ht
        · exact hseen t ht
        · rw [List.mem_singleton.1 ht]; exact hp s (hss s (by simp))) h2
    refine ⟨st', ?_, by simpa using h4⟩
    rw [List.map_cons, List.foldlM_cons, h1]
    exact h3

end PF

end Verif.Fun
