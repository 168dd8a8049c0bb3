import Verif.Hash.Lemmas
import Verif.Vars.Props
import Mathlib.Tactic.Ring
import Mathlib.Tactic.Linarith

/-!
# C108: objects that are equal have equal hashes, and equality is an equivalence
-/

namespace Verif.Hash

variable {L : Type} [DecidableEq L]

/-- **C108** (partial) Two variables whose domains are made by `NumericType` from at least one value, by `SymbolicType` or by
`IntegerType`; if both are symbolic, with the same number of labels.  They are equal exactly if they have the same class,
name and domain and the same settings, and then they have the same hash.  Missing are domains with different numbers of
labels (`C108_violated_prefix`) and numeric domains made from no values (`C108_violated_nan`). -/
theorem C108_variables_partial {inj : ℤ → L} {v w : Variable L} (hv : Built inj v.domain) (hw : Built inj w.domain)
    (hs : SameSize v.domain w.domain) (h1 : (v.settings.map Prod.fst).Nodup) (h2 : (w.settings.map Prod.fst).Nodup) :
    (v.eq w = true ↔ v.cls = w.cls ∧ v.name = w.name ∧ v.domain = w.domain ∧
      ∀ k, v.settings.lookup k = w.settings.lookup k) ∧
    ∀ md5, v.eq w = true → v.key md5 = w.key md5 := by
  have key : v.eq w = true ↔ v.cls = w.cls ∧ v.name = w.name ∧ v.domain = w.domain ∧
      ∀ k, v.settings.lookup k = w.settings.lookup k := by
    simp only [Variable.eq, Bool.and_eq_true, decide_eq_true_eq, Domain.equiv_iff hv hw hs, dictEq_iff h1 h2, and_assoc]
  refine ⟨key, fun md5 h => ?_⟩
  obtain ⟨e1, e2, e3, e4⟩ := key.1 h
  unfold Variable.key
  rw [e1, e2, e3, sort_perm Prod.fst h1 (perm_of_lookup h1 h2 e4)]

/-- **C108** (partial) Equality of such variables is an equivalence. -/
theorem C108_equivalence_partial {inj : ℤ → L} {u v w : Variable L} (hu : Built inj u.domain) (hv : Built inj v.domain)
    (hw : Built inj w.domain) (h1 : SameSize u.domain v.domain) (h2 : SameSize v.domain w.domain)
    (su : (u.settings.map Prod.fst).Nodup) (sv : (v.settings.map Prod.fst).Nodup)
    (sw : (w.settings.map Prod.fst).Nodup) :
    v.eq v = true ∧ (u.eq v = true → v.eq u = true) ∧ (u.eq v = true → v.eq w = true → u.eq w = true) := by
  have k1 := (C108_variables_partial hu hv h1 su sv).1
  have k2 := (C108_variables_partial hv hw h2 sv sw).1
  have s1 : SameSize v.domain u.domain := fun a b => (h1 b a).symm
  refine ⟨(C108_variables_partial hv hv (fun _ _ => rfl) sv sv).1.2 ⟨rfl, rfl, rfl, fun _ => rfl⟩, fun h => ?_, fun h h' => ?_⟩
  · obtain ⟨e1, e2, e3, e4⟩ := k1.1 h
    exact (C108_variables_partial hv hu s1 sv su).1.2 ⟨e1.symm, e2.symm, e3.symm, fun k => (e4 k).symm⟩
  · obtain ⟨e1, e2, e3, e4⟩ := k1.1 h
    obtain ⟨g1, g2, g3, g4⟩ := k2.1 h'
    have s2 : SameSize u.domain w.domain := by rw [e3, g3]; exact fun _ _ => rfl
    exact (C108_variables_partial hu hw s2 su sw).1.2
      ⟨e1.trans g1, e2.trans g2, e3.trans g3, fun k => (e4 k).trans (g4 k)⟩

/-- A symbolic variable with the labels 10, 20 and one with the labels 10, 20, 30; the settings in two orders. -/
def two : Variable ℤ := ⟨"SymbolicVariable", "x", ⟨.symbolic, "X", "X", .dict [(10, 0), (20, 1)], .dict [(0, 10), (1, 20)], []⟩,
  [("a", 1), ("b", 2)]⟩

/-- See `two`. -/
def three : Variable ℤ := ⟨"SymbolicVariable", "x",
  ⟨.symbolic, "X", "X", .dict [(10, 0), (20, 1), (30, 2)], .dict [(0, 10), (1, 20), (2, 30)], []⟩, [("b", 2), ("a", 1)]⟩

/-- See `two`. -/
def three' : Variable ℤ := ⟨"SymbolicVariable", "x",
  ⟨.symbolic, "X", "X", .dict [(10, 0), (20, 1), (40, 2)], .dict [(0, 10), (1, 20), (2, 40)], []⟩, [("a", 1), ("b", 2)]⟩

/-- These are domains made by `SymbolicType`, and the order of the settings does not matter. -/
example : symbolicType id "X" [10, 20] = .ok two.domain ∧ symbolicType id "X" [10, 20, 30] = .ok three.domain ∧
    symbolicType id "X" [10, 20, 40] = .ok three'.domain ∧
    (two.settings.map Prod.fst).Nodup ∧ three.eq { three with settings := two.settings } = true ∧
    three.key id = Variable.key id { three with settings := two.settings } := by
  refine ⟨rfl, rfl, rfl, by decide, by decide +kernel, by decide +kernel⟩

/-- An integer and a numeric domain. -/
example : (∃ d, integerType (id : ℤ → ℤ) "I" 1 3 = .ok d ∧ Built id d ∧ d.equiv d = true ∧ d.key = ⟨"I", [], [1, 3, 0, 2], .integer⟩) ∧
    (numericType "N" ⟨some 1, some 2⟩ : Domain ℤ).equiv (numericType "N" ⟨some 1, some 3⟩) = false :=
  ⟨⟨_, rfl, .integer "I" 1 3 _ rfl, by decide +kernel, by decide +kernel⟩, by decide +kernel⟩

/-- Symbolic variables of the same name are equal if the labels of one are the first labels of the other.  They have
different hashes, and equality is not transitive: two variables that are both equal to a third one differ. -/
theorem C108_violated_prefix : two.eq three = true ∧ two.key id ≠ three.key id ∧
    three.eq two = true ∧ two.eq three' = true ∧ three.eq three' = false := by
  refine ⟨by decide +kernel, by decide +kernel, by decide +kernel, by decide +kernel, by decide +kernel⟩

/-- A variable whose numeric domain is made from an empty list of values (the mean of which is NaN, the scale 1) is not equal
to itself. -/
theorem C108_violated_nan (cls name dom : String) (settings : List (String × ℚ)) :
    let v : Variable L := ⟨cls, name, numericType dom ⟨none, some 1⟩, settings⟩
    v.eq v = false := by
  simp [Variable.eq, Domain.equiv, numericType, Trans.ofScaler, Trans.eq, Scaler.eq, feq]

/-- The transformations made from two scalers are equal exactly if both scalers have the same mean and the same scale,
neither of them NaN, and the transformations have the same direction; then they have the same hash. -/
theorem C108_transformations (s t : Scaler) (i j : Bool) :
    ((Trans.ofScaler s i : Trans L).eq (Trans.ofScaler t j) = true ↔
      i = j ∧ ∃ m c, s = ⟨some m, some c⟩ ∧ t = ⟨some m, some c⟩) ∧
    ((Trans.ofScaler s i : Trans L).eq (Trans.ofScaler t j) = true →
      (Trans.ofScaler s i : Trans L).key = (Trans.ofScaler t j).key) := by
  have h : (Trans.ofScaler s i : Trans L).eq (Trans.ofScaler t j) = true ↔
      i = j ∧ ∃ m c, s = ⟨some m, some c⟩ ∧ t = ⟨some m, some c⟩ := by
    obtain ⟨m, c⟩ := s
    obtain ⟨m', c'⟩ := t
    cases m <;> cases c <;> cases m' <;> cases c' <;> simp [Trans.ofScaler, Trans.eq, Scaler.eq, feq] <;> grind
  refine ⟨h, fun he => ?_⟩
  obtain ⟨rfl, m, c, rfl, rfl⟩ := h.1 he
  rfl

example : (Trans.ofScaler ⟨some 1, some 2⟩ true : Trans ℤ).eq (Trans.ofScaler ⟨some 1, some 2⟩ true) = true ∧
    (Trans.ofScaler ⟨some 1, some 2⟩ true : Trans ℤ).eq (Trans.ofScaler ⟨some 1, some 2⟩ false) = false := by decide +kernel

/-- Equality of variables is symmetric for all domains. -/
theorem C108_symmetric {v w : Variable L} (h1 : (v.settings.map Prod.fst).Nodup) (h2 : (w.settings.map Prod.fst).Nodup) :
    v.eq w = w.eq v := by
  have hd : dictEq v.settings w.settings = dictEq w.settings v.settings := by
    rw [Bool.eq_iff_iff, dictEq_iff h1 h2, dictEq_iff h2 h1]
    exact forall_congr' fun k => eq_comm
  unfold Variable.eq
  rw [Domain.equiv_comm, hd, decide_eq_decide.2 (eq_comm (a := v.cls)), decide_eq_decide.2 (eq_comm (a := v.name))]

/-- Variable assignments that are equal have the same hash, or the hash fails for both, whatever the hash `hk` of a value
is.  The hash succeeds if all values can be hashed. -/
theorem C108_assignments {P A K : Type} [DecidableEq P] [DecidableEq A] (hk : A → Except Err K) {m o : Vars.VMap P A}
    (hm : m.WF) (ho : o.WF) (h : m.eq o = true) :
    mapKey hk m = mapKey hk o ∧ ((∀ p ∈ m.map, ∃ k, hk p.2 = .ok k) → ∃ r, mapKey hk m = .ok r) := by
  obtain ⟨e1, e2⟩ := (Vars.C54_eq m o hm ho).1 h
  have hp : m.map.Perm o.map := perm_of_lookup hm.map ho.map e1
  -- the items
  have items : ∀ {m : Vars.VMap P A}, m.WF → ∃ is, m.items = .ok is ∧
      is.map (fun p => (p.1.name, p.2)) = m.map ∧ ∀ p ∈ is, m.vars.lookup p.1.name = some p.1 := by
    intro m hm
    unfold Vars.VMap.items
    have hdecl := hm.declared
    generalize m.map = l at hdecl
    induction l with
    | nil => exact ⟨[], rfl, rfl, by simp⟩
    | cons p l ih =>
      obtain ⟨is, i1, i2, i3⟩ := ih (fun n hn => hdecl n (by simp only [List.map_cons, List.mem_cons]; exact .inr hn))
      obtain ⟨v, hv⟩ := Dict.lookup_isSome.2 (hdecl p.1 (by simp))
      have hn : v.name = p.1 := hm.names _ (Dict.lookup_mem hv)
      refine ⟨(v, p.2) :: is, ?_, ?_, ?_⟩
      · rw [List.mapM_cons, i1]
        simp only [Dict.get, hv, bind, Except.bind, pure, Except.pure]
      · simp only [List.map_cons, i2, hn]
      · intro q hq
        rcases List.mem_cons.1 hq with rfl | hq
        · rw [hn, hv]
        · exact i3 q hq
  obtain ⟨is, a1, a2, a3⟩ := items hm
  obtain ⟨js, b1, b2, b3⟩ := items ho
  have hn : (is.map (fun p => p.1.name)).Nodup := by
    have := hm.map
    rw [← a2, List.map_map] at this
    exact this
  have hn' : (js.map (fun p => p.1.name)).Nodup := by
    have := ho.map
    rw [← b2, List.map_map] at this
    exact this
  have hperm : is.Perm js := by
    refine (List.perm_ext_iff_of_nodup (List.Nodup.of_map _ hn) (List.Nodup.of_map _ hn')).2 (fun p => ?_)
    have half : ∀ {m o : Vars.VMap P A} {is js : List (Vars.Var P × A)}, m.map.Perm o.map →
        (∀ n, m.vars.lookup n = o.vars.lookup n) → is.map (fun p => (p.1.name, p.2)) = m.map →
        js.map (fun p => (p.1.name, p.2)) = o.map → (∀ p ∈ is, m.vars.lookup p.1.name = some p.1) →
        (∀ p ∈ js, o.vars.lookup p.1.name = some p.1) → p ∈ is → p ∈ js := by
      intro m o is js hp e2 a2 b2 a3 b3 hpi
      have h1 : (p.1.name, p.2) ∈ o.map := hp.subset (by rw [← a2]; exact List.mem_map.2 ⟨p, hpi, rfl⟩)
      rw [← b2] at h1
      obtain ⟨q, hq, e⟩ := List.mem_map.1 h1
      simp only [Prod.mk.injEq] at e
      have e3 := a3 p hpi
      have e4 := b3 q hq
      rw [e.1, ← e2, e3, Option.some.injEq] at e4
      have : p = q := Prod.ext e4 e.2.symm
      rw [this]
      exact hq
    exact ⟨half hp e2 a2 b2 a3 b3, half hp.symm (fun n => (e2 n).symm) b2 a2 b3 a3⟩
  refine ⟨?_, fun hok => ?_⟩
  · unfold mapKey
    rw [a1, b1]
    simp only [bind, Except.bind]
    rw [sort_perm (fun p : Vars.Var P × A => p.1.name) hn hperm]
  · unfold mapKey
    rw [a1]
    simp only [bind, Except.bind]
    have : ∀ (F : Vars.Var P × A → Except Err (Vars.Var P × K)) (l : List (Vars.Var P × A)), (∀ p ∈ l, ∃ k, F p = .ok k) →
        ∃ r, l.mapM F = .ok r := by
      intro F l hl
      induction l with
      | nil => exact ⟨[], rfl⟩
      | cons p l ih =>
        obtain ⟨r, hr⟩ := ih (fun q hq => hl q (by simp [hq]))
        obtain ⟨k, hk'⟩ := hl p (by simp)
        exact ⟨k :: r, by rw [List.mapM_cons, hr, hk']; rfl⟩
    refine this _ _ (fun p hp' => ?_)
    rw [List.mem_insertionSort] at hp'
    obtain ⟨k, hk'⟩ := hok (p.1.name, p.2) (by rw [← a2]; exact List.mem_map.2 ⟨p, hp', rfl⟩)
    simp only at hk'
    exact ⟨(p.1, k), by simp only [hk', pure, Except.pure]⟩

/-- Two assignments with different orders of insertion. -/
example : let m : Vars.VMap Unit ℤ := ⟨[("a", ⟨"a", ()⟩), ("b", ⟨"b", ()⟩)], [("a", 1), ("b", 2)]⟩
    let o : Vars.VMap Unit ℤ := ⟨[("b", ⟨"b", ()⟩), ("a", ⟨"a", ()⟩)], [("b", 2), ("a", 1)]⟩
    m.eq o = true ∧ (mapKey (fun x : ℤ => (.ok x : Except Err ℤ)) m).toOption.map (fun l => l.map (fun p => (p.1.name, p.2))) =
      some [("a", 1), ("b", 2)] ∧
      (mapKey (fun x : ℤ => (.ok x : Except Err ℤ)) o).toOption.map (fun l => l.map (fun p => (p.1.name, p.2))) =
      some [("a", 1), ("b", 2)] := by
  refine ⟨by decide +kernel, by decide +kernel, by decide +kernel⟩

/-- Functions that can be hashed have the same hash exactly if they have the same value everywhere; functions that compare
equal have the same value everywhere, hence the same hash if they can be hashed. -/
theorem C108_functions {f g : Fun.Fn} {a b : FnKey} (hf : fnKey f = .ok a) (hg : fnKey g = .ok b) :
    (a = b ↔ ∀ x, f.eval x = g.eval x) ∧ (f.eq g = .ok true → a = b) := by
  have key : a = b ↔ ∀ x, f.eval x = g.eval x := by
    cases f <;> cases g <;> simp only [fnKey, Except.ok.injEq, reduceCtorEq] at hf hg <;> subst hf <;> subst hg <;>
      simp only [FnKey.linear.injEq, Fun.Fn.eval, Option.some.injEq, reduceCtorEq, true_and, implies_true, forall_const]
    · rename_i v m c
      constructor
      · rintro ⟨rfl, rfl⟩ x; ring
      · intro h
        have h0 := h 0
        have h1 := h 1
        constructor <;> linarith
    · rename_i m c v
      constructor
      · rintro ⟨rfl, rfl⟩ x; ring
      · intro h
        have h0 := h 0
        have h1 := h 1
        constructor <;> linarith
    · rename_i m c m' c'
      constructor
      · rintro ⟨rfl, rfl⟩ x; rfl
      · intro h
        have h0 := h 0
        have h1 := h 1
        constructor <;> linarith
  refine ⟨key, fun h => ?_⟩
  cases f <;> cases g <;> simp only [fnKey, Except.ok.injEq, reduceCtorEq] at hf hg <;> subst hf <;> subst hg <;>
    simp [Fun.Fn.eq] at h <;> simp_all

/-- A constant and a linear function that are equal. -/
example : fnKey (.const 3) = .ok (.linear 0 3) ∧ fnKey (.lin 0 3) = .ok (.linear 0 3) ∧
    (Fun.Fn.const 3).eq (.lin 0 3) = .ok true := ⟨rfl, rfl, rfl⟩

/-- Quadratic functions are equal to themselves and cannot be hashed. -/
theorem C108_violated_quadratic (a b c : ℚ) : (Fun.Fn.quad a b c).eq (.quad a b c) = .ok true ∧
    fnKey (.quad a b c) = .error .typeError := by simp [Fun.Fn.eq, fnKey]

/-- A piecewise function is hashed by the address of a generator that is made for this purpose: a function that is equal to
itself has another hash whenever the generator is allocated elsewhere. -/
theorem C108_violated_piecewise : ¬ ∀ (p q : Fun.PF) (x y : ℕ), p.eq q = .ok true → pfKey p x = pfKey q y := by
  intro h
  exact absurd (h [] [] 0 1 rfl) (by decide)

/-- The hash of a quantile distribution depends on `verbose`, which does not matter for equality. -/
theorem C108_violated_verbose (cdf : Fun.PF) (h : cdf.eq cdf = .ok true) (addr : ℕ) :
    (Quant.mk 0 true 5 cdf).eq (Quant.mk 0 false 5 cdf) = .ok true ∧
      (Quant.mk 0 true 5 cdf).key addr ≠ (Quant.mk 0 false 5 cdf).key addr := by
  simp [Quant.eq, Quant.key, h]

end Verif.Hash
