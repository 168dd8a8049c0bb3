import Verif.Learn.Depend
import Verif.ListAux
import Mathlib.Tactic.Linarith

/-!
# C132: the given dependencies decide which statistics a split looks at

*Moving a row of data to the left side of a split on a feature adds its values to the statistics of exactly those targets that `dependencies`
names for this feature, each once, and leaves the statistics of all other targets alone; a feature without an entry is a `KeyError`, an
unknown variable a `ValueError`.*
-/

namespace Verif.Dep

variable {K : Type} [DecidableEq K]

/-- `dependencies` names the variable number `t` for the variable number `v`. -/
def Depends (vars : List K) (deps : List (K × List K)) (v t : ℕ) : Prop :=
  ∃ a b ds, vars[v]? = some a ∧ vars[t]? = some b ∧ (a, ds) ∈ deps ∧ b ∈ ds

/-- The target at position `i` is named for `v`. -/
def At (vars : List K) (deps : List (K × List K)) (targets : List ℕ) (v i : ℕ) : Prop :=
  ∃ t, targets[i]? = some t ∧ Depends vars deps v t

/-- Every variable that occurs in `dependencies` is a variable of the tree. -/
def Known (vars : List K) (deps : List (K × List K)) : Prop := ∀ p ∈ deps, p.1 ∈ vars ∧ ∀ b ∈ p.2, b ∈ vars

theorem walk_replicate {S : Type} (f : ℕ → S → S) (n : ℕ) (s : S) : walk f (List.replicate n (-1)) s = s := by
  cases n <;> simp [walk, List.replicate_succ]

theorem walk_append {S : Type} (f : ℕ → S → S) (n : ℕ) : ∀ (idx : List ℕ) (s : S),
    walk f (idx.map (fun i => (i : Int)) ++ List.replicate n (-1)) s = idx.foldl (fun s i => f i s) s
  | [], s => by simp [walk_replicate]
  | i :: r, s => by
    have : ((i : Int) = -1) = False := by simp only [eq_iff_iff, iff_false]; omega
    have ih := walk_append f n r (f i s)
    rw [List.foldl_cons, ← ih]
    exact if_neg (by rw [this]; exact id)

theorem walk_row {S : Type} (f : ℕ → S → S) {w : ℕ} {idx : List ℕ} {r : List Int} (h : row w idx = .ok r) (s : S) :
    walk f r s = idx.foldl (fun s i => f i s) s := by
  unfold row at h
  split at h
  · cases h
  · cases h; exact walk_append f _ idx s

theorem mem_positions (ts dep : List ℕ) (i : ℕ) : i ∈ positions ts dep ↔ ∃ t, ts[i]? = some t ∧ t ∈ dep := by
  simp only [positions, List.mem_filter, List.mem_range, decide_eq_true_eq, List.getD_eq_getElem?_getD]
  constructor
  · rintro ⟨h, hm⟩
    exact ⟨ts[i], by simp [h], by simpa [h] using hm⟩
  · rintro ⟨t, ht, hm⟩
    have := List.getElem?_eq_some_iff.1 ht
    obtain ⟨h, e⟩ := this
    exact ⟨h, by simpa [h, e] using hm⟩

theorem nodup_positions (ts dep : List ℕ) : (positions ts dep).Nodup := List.Nodup.filter _ List.nodup_range

theorem length_positions (ts dep : List ℕ) : (positions ts dep).length ≤ ts.length := by
  have := List.length_filter_le (fun i => decide (ts.getD i 0 ∈ dep)) (List.range ts.length)
  simpa [positions] using this

theorem fold_num (x : ℕ → ℚ) (ts : List ℕ) (tot sq : ℕ → ℚ) : ∀ (idx : List ℕ), idx.Nodup → ∀ (s : Sums) (j : ℕ),
    let s' := idx.foldl (fun s i => addNum x ts tot sq i s) s
    (j ∈ idx → s'.left j = s.left j + x (ts.getD j 0) ∧ s'.right j = tot j - (s.left j + x (ts.getD j 0))
      ∧ s'.sqLeft j = s.sqLeft j + x (ts.getD j 0) * x (ts.getD j 0)
      ∧ s'.sqRight j = sq j - (s.sqLeft j + x (ts.getD j 0) * x (ts.getD j 0)))
    ∧ (j ∉ idx → s'.left j = s.left j ∧ s'.right j = s.right j ∧ s'.sqLeft j = s.sqLeft j ∧ s'.sqRight j = s.sqRight j)
  | [], _, s, j => by simp
  | i :: r, hn, s, j => by
    have ih := fold_num x ts tot sq r (List.nodup_cons.1 hn).2 (addNum x ts tot sq i s) j
    have hi := (List.nodup_cons.1 hn).1
    simp only [List.foldl_cons] at ih ⊢
    generalize List.foldl (fun s i => addNum x ts tot sq i s) (addNum x ts tot sq i s) r = z at ih ⊢
    by_cases hj : j = i
    · subst hj
      have h2 := ih.2 hi
      simp only [addNum, ite_true] at h2
      exact ⟨fun _ => h2, fun hn => absurd List.mem_cons_self hn⟩
    · simp only [addNum, hj, ite_false] at ih
      simpa only [List.mem_cons, hj, false_or] using ih

theorem fold_sym (x : ℕ → ℕ) (ts : List ℕ) (tot : ℕ → ℕ → Int) : ∀ (idx : List ℕ), idx.Nodup → ∀ (s : Hists) (j u : ℕ),
    let s' := idx.foldl (fun s i => addSym x ts tot i s) s
    (j ∈ idx ∧ u = x (ts.getD j 0) → s'.left j u = s.left j u + 1 ∧ s'.right j u = tot j u - (s.left j u + 1))
    ∧ (¬ (j ∈ idx ∧ u = x (ts.getD j 0)) → s'.left j u = s.left j u ∧ s'.right j u = s.right j u)
  | [], _, s, j, u => by simp
  | i :: r, hn, s, j, u => by
    have ih := fold_sym x ts tot r (List.nodup_cons.1 hn).2 (addSym x ts tot i s) j u
    have hi := (List.nodup_cons.1 hn).1
    simp only [List.foldl_cons] at ih ⊢
    generalize List.foldl (fun s i => addSym x ts tot i s) (addSym x ts tot i s) r = z at ih ⊢
    by_cases hj : j = i
    · subst hj
      have h2 := ih.2 (fun h => hi h.1)
      by_cases hu : u = x (ts.getD j 0)
      · simp only [addSym, ← hu, and_self, ite_true] at h2
        exact ⟨fun _ => h2, fun hn => absurd ⟨List.mem_cons_self, hu⟩ hn⟩
      · simp only [addSym, hu, and_false, ite_false] at h2
        exact ⟨fun h => absurd h.2 hu, fun _ => h2⟩
    · simp only [addSym, hj, false_and, ite_false] at ih
      simpa only [List.mem_cons, hj, false_or] using ih

theorem matrix_ok {w : ℕ} {ts : List ℕ} {dep : List (ℕ × List ℕ)} : ∀ (fs : List ℕ) (M M' : ℕ → List Int),
    matrix w ts dep fs M = .ok M' → ∀ v,
      (v ∈ fs → ∃ d, (ts ≠ [] → dep.lookup v = some d) ∧ row w (positions ts d) = .ok (M' v)) ∧ (v ∉ fs → M' v = M v)
  | [], M, M', h, v => by simp only [matrix, Except.ok.injEq] at h; subst h; simp
  | f :: fs, M, M', h, v => by
    rw [matrix] at h
    cases hd : entry ts dep f with
    | error e => rw [hd] at h; cases h
    | ok d =>
      rw [hd] at h
      simp only [bind, Except.bind] at h
      split at h
      · cases h
      · rename_i r hr
        have ih := matrix_ok fs _ M' h v
        by_cases hv : v ∈ fs
        · exact ⟨fun _ => ih.1 hv, fun hn => absurd (List.mem_cons_of_mem f hv) hn⟩
        · have h2 := ih.2 hv
          by_cases hf : v = f
          · subst hf
            refine ⟨fun _ => ⟨d, ?_, by simpa [h2] using hr⟩, fun hn => absurd List.mem_cons_self hn⟩
            intro hts
            simp only [entry, hts, ite_false] at hd
            rw [Dict.get_eq] at hd
            cases hl : dep.lookup v with
            | none => rw [hl] at hd; cases hd
            | some b => rw [hl] at hd; cases hd; rfl
          · simp only [hf, ite_false] at h2
            refine ⟨fun hm => ?_, fun _ => h2⟩
            simp [hf, hv] at hm

theorem indexOf_ok {vars : List K} {v : K} {i : ℕ} : indexOf vars v = .ok i ↔ v ∈ vars ∧ i = vars.idxOf v := by
  unfold indexOf
  split
  · rename_i h; simp [h, eq_comm]
  · rename_i h; simp [h]

theorem mapM_index {vars : List K} : ∀ {ds : List K} {js : List ℕ}, ds.mapM (indexOf vars) = .ok js →
    (∀ b ∈ ds, b ∈ vars) ∧ js = ds.map vars.idxOf := by
  intro ds js h
  rw [mapM_ok_iff] at h
  induction h with
  | nil => simp
  | cons h1 _ ih =>
    rw [indexOf_ok] at h1
    refine ⟨?_, by simp [h1.2, ih.2]⟩
    intro b hb
    rcases List.mem_cons.1 hb with h | h
    · subst h; exact h1.1
    · exact ih.1 b h

theorem idxOf_get {vars : List K} (hv : vars.Nodup) {t : ℕ} {b : K} (h : vars[t]? = some b) : vars.idxOf b = t := by
  obtain ⟨ht, e⟩ := List.getElem?_eq_some_iff.1 h
  subst e
  exact List.Nodup.idxOf_getElem hv t ht

theorem depIndices_ok {vars : List K} (hv : vars.Nodup) : ∀ (deps : List (K × List K)) (acc D : List (ℕ × List ℕ)),
    Dict.WF deps → depIndices vars deps acc = .ok D → ∀ v a, vars[v]? = some a →
      (∀ ds, (a, ds) ∈ deps → D.lookup v = some (ds.map vars.idxOf)) ∧ (a ∉ deps.map Prod.fst → D.lookup v = acc.lookup v)
  | [], acc, D, _, h, v, a, _ => by simp only [depIndices, Except.ok.injEq] at h; subst h; simp
  | (b, es) :: r, acc, D, hw, h, v, a, ha => by
    simp only [depIndices, bind, Except.bind] at h
    split at h
    · cases h
    · rename_i i hi
      split at h
      · cases h
      · rename_i js hj
        have hw' : Dict.WF r ∧ b ∉ r.map Prod.fst := by
          simp only [Dict.WF, List.map_cons, List.nodup_cons] at hw
          exact ⟨hw.2, hw.1⟩
        have ih := depIndices_ok hv r _ D hw'.1 h v a ha
        rw [indexOf_ok] at hi
        have hjs := (mapM_index hj).2
        have hl := Dict.lookup_set acc i js v
        constructor
        · intro ds hm
          rcases List.mem_cons.1 hm with e | hm
          · cases e
            have := idxOf_get hv ha
            rw [ih.2 hw'.2, hl]
            simp [hi.2, this, hjs]
          · exact ih.1 ds hm
        · intro hn
          simp only [List.map_cons, List.mem_cons, not_or] at hn
          rw [ih.2 hn.2, hl]
          have : v ≠ i := by
            intro e
            subst e
            obtain ⟨ht, e⟩ := List.getElem?_eq_some_iff.1 ha
            have hlt := List.idxOf_lt_length_iff.2 hi.1
            have := List.getElem_idxOf hlt
            apply hn.1
            rw [← e, ← this]
            congr 1
            exact hi.2
          simp [this]

theorem matrix_total {w : ℕ} {ts : List ℕ} {dep : List (ℕ × List ℕ)} (hw : ts.length ≤ w) : ∀ (fs : List ℕ) (M : ℕ → List Int),
    ((ts = [] ∨ ∀ f ∈ fs, f ∈ dep.map Prod.fst) → ∃ M', matrix w ts dep fs M = .ok M')
    ∧ (¬ (ts = [] ∨ ∀ f ∈ fs, f ∈ dep.map Prod.fst) → matrix w ts dep fs M = .error .keyError)
  | [], M => by simp [matrix]
  | f :: fs, M => by
    rw [matrix]
    have hr : ∀ d, ∃ r, row w (positions ts d) = .ok r := fun d => by
      have := length_positions ts d
      unfold row
      rw [if_neg (by omega)]
      exact ⟨_, rfl⟩
    by_cases hts : ts = []
    · obtain ⟨r, hr⟩ := hr []
      have ih := (matrix_total (dep := dep) hw fs (fun x => if x = f then r else M x)).1 (Or.inl hts)
      obtain ⟨M', ih⟩ := ih
      refine ⟨fun _ => ⟨M', ?_⟩, fun h => absurd (Or.inl hts) h⟩
      have he : entry ts dep f = .ok [] := if_pos hts
      rw [he]
      simp only [bind, Except.bind, hr, ih]
    · have he : entry ts dep f = Dict.get dep f := if_neg hts
      rw [he]
      cases hl : dep.lookup f with
      | none =>
        have hk := Dict.lookup_none.1 hl
        have hg : Dict.get dep f = .error .keyError := by simp [Dict.get, hl]
        rw [hg]
        refine ⟨fun h => ?_, fun _ => rfl⟩
        rcases h with h | h
        · exact absurd h hts
        · exact absurd (h f List.mem_cons_self) hk
      | some d =>
        have hk := Dict.lookup_isSome.1 ⟨d, hl⟩
        have hg : Dict.get dep f = .ok d := by simp [Dict.get, hl]
        rw [hg]
        obtain ⟨r, hr⟩ := hr d
        have ih := matrix_total (dep := dep) hw fs (fun x => if x = f then r else M x)
        simp only [bind, Except.bind, hr]
        simp only [hts, false_or, List.forall_mem_cons] at ih ⊢
        exact ⟨fun h => ih.1 h.2, fun h => ih.2 (fun h' => h ⟨hk, h'⟩)⟩

theorem mapM_index_total (vars : List K) : ∀ (ds : List K),
    ((∀ b ∈ ds, b ∈ vars) → ∃ js, ds.mapM (indexOf vars) = .ok js)
    ∧ (¬ (∀ b ∈ ds, b ∈ vars) → ds.mapM (indexOf vars) = .error .valueError)
  | [] => by simp [pure, Except.pure]
  | b :: ds => by
    rw [List.mapM_cons]
    have ih := mapM_index_total vars ds
    by_cases hb : b ∈ vars
    · by_cases hd : ∀ b ∈ ds, b ∈ vars
      · obtain ⟨js, hj⟩ := ih.1 hd
        simp [hb, hj, indexOf, bind, Except.bind, pure, Except.pure]
        exact hd
      · have hj := ih.2 hd
        simp only [List.forall_mem_cons, hb, hd, and_false, false_imp_iff, true_and, not_false_eq_true, forall_const]
        simp [hb, hj, indexOf, bind, Except.bind]
    · simp [hb, indexOf, bind, Except.bind]

theorem depIndices_total (vars : List K) : ∀ (deps : List (K × List K)) (acc : List (ℕ × List ℕ)),
    (Known vars deps → ∃ D, depIndices vars deps acc = .ok D
      ∧ ∀ i, i ∈ D.map Prod.fst ↔ i ∈ acc.map Prod.fst ∨ ∃ a ∈ deps.map Prod.fst, vars.idxOf a = i)
    ∧ (¬ Known vars deps → depIndices vars deps acc = .error .valueError)
  | [], acc => by simp [Known, depIndices]
  | (a, ds) :: r, acc => by
    have hk : Known vars ((a, ds) :: r) ↔ (a ∈ vars ∧ ∀ b ∈ ds, b ∈ vars) ∧ Known vars r := by simp [Known]
    rw [hk, depIndices]
    by_cases ha : a ∈ vars
    · have hi : indexOf vars a = .ok (vars.idxOf a) := if_pos ha
      by_cases hd : ∀ b ∈ ds, b ∈ vars
      · obtain ⟨js, hj⟩ := (mapM_index_total vars ds).1 hd
        have ih := depIndices_total vars r (Dict.set acc (vars.idxOf a) js)
        simp only [hi, hj, bind, Except.bind]
        refine ⟨fun h => ?_, fun h => ih.2 (fun h' => h ⟨⟨ha, hd⟩, h'⟩)⟩
        obtain ⟨D, hD, hm⟩ := ih.1 h.2
        refine ⟨D, hD, fun i => ?_⟩
        rw [hm, Dict.keys_set]
        have : vars.idxOf a = i ↔ i = vars.idxOf a := eq_comm
        split <;> rename_i hin <;>
          simp only [List.map_cons, List.mem_cons, exists_eq_or_imp, List.mem_append, List.not_mem_nil, or_false, this]
        · constructor
          · rintro (h | h)
            · exact Or.inl h
            · exact Or.inr (Or.inr h)
          · rintro (h | h | h)
            · exact Or.inl h
            · subst h; exact Or.inl (by simpa using hin)
            · exact Or.inr h
        · exact or_assoc
      · have hj := (mapM_index_total vars ds).2 hd
        simp only [hi, hj, bind, Except.bind]
        exact ⟨fun h => absurd h.1.2 hd, fun _ => trivial⟩
    · have hi : indexOf vars a = .error .valueError := if_neg ha
      simp only [hi, bind, Except.bind]
      exact ⟨fun h => absurd h.1.1 ha, fun _ => trivial⟩

/-- What a row of the matrix says. -/
theorem build_row {vars : List K} {deps : List (K × List K)} {fs ts : List ℕ} {n : ℕ} {M : ℕ → List Int} (hv : vars.Nodup)
    (hd : Dict.WF deps) (hf : ∀ f ∈ fs, f < vars.length) (ht : ∀ t ∈ ts, t < vars.length) (h : build vars deps fs ts n = .ok M)
    {v : ℕ} (hm : v ∈ fs) :
    ∃ idx : List ℕ, idx.Nodup ∧ (∀ i, i ∈ idx ↔ At vars deps ts v i) ∧ row n idx = .ok (M v) := by
  simp only [build, bind, Except.bind] at h
  split at h
  · cases h
  · rename_i D hD
    obtain ⟨d, hl, hr⟩ := (matrix_ok fs _ M h v).1 hm
    refine ⟨_, nodup_positions _ _, ?_, hr⟩
    intro i
    rw [mem_positions]
    unfold At
    refine exists_congr fun t => and_congr_right fun hti => ?_
    have hne : ts ≠ [] := by intro e; subst e; simp at hti
    have hl := hl hne
    have hvl := hf v hm
    have htl := ht t (List.mem_of_getElem? hti)
    have ha : vars[v]? = some vars[v] := by simp [hvl]
    have hb : vars[t]? = some vars[t] := by simp [htl]
    have sp := depIndices_ok hv deps [] D hd hD v _ ha
    constructor
    · intro htd
      by_cases hk : vars[v] ∈ deps.map Prod.fst
      · obtain ⟨⟨a, ds⟩, hp, e⟩ := List.mem_map.1 hk
        simp only at e
        subst e
        have h2 := sp.1 ds hp
        rw [hl] at h2
        cases h2
        obtain ⟨b, hbm, hbe⟩ := List.mem_map.1 htd
        refine ⟨_, _, ds, ha, hb, hp, ?_⟩
        have hlt : vars.idxOf b < vars.length := by rw [hbe]; exact htl
        have e := List.getElem_idxOf hlt
        have : vars[t] = b := by rw [← e]; congr 1; exact hbe.symm
        rw [this]; exact hbm
      · have h2 := sp.2 hk
        rw [hl] at h2
        simp at h2
    · rintro ⟨a, b, ds, h1, h2, hp, hbm⟩
      rw [ha] at h1
      cases h1
      have h3 := sp.1 ds hp
      rw [hl] at h3
      cases h3
      exact List.mem_map.2 ⟨b, hbm, idxOf_get hv h2⟩

/-- Numeric targets: the row is added once to the statistics of the targets named for the feature, and to no others. -/
theorem C132_numeric {vars : List K} {deps : List (K × List K)} {fs ts : List ℕ} {n : ℕ} {M : ℕ → List Int} (hv : vars.Nodup)
    (hd : Dict.WF deps) (hf : ∀ f ∈ fs, f < vars.length) (ht : ∀ t ∈ ts, t < vars.length) (h : build vars deps fs ts n = .ok M)
    {v : ℕ} (hm : v ∈ fs) (x : ℕ → ℚ) (tot sq : ℕ → ℚ) (s : Sums) (j : ℕ) :
    let s' := walk (addNum x ts tot sq) (M v) s
    (∀ t, ts[j]? = some t → Depends vars deps v t → s'.left j = s.left j + x t ∧ s'.right j = tot j - (s.left j + x t)
      ∧ s'.sqLeft j = s.sqLeft j + x t ^ 2 ∧ s'.sqRight j = sq j - (s.sqLeft j + x t ^ 2))
    ∧ ((∀ t, ts[j]? = some t → ¬ Depends vars deps v t) →
      s'.left j = s.left j ∧ s'.right j = s.right j ∧ s'.sqLeft j = s.sqLeft j ∧ s'.sqRight j = s.sqRight j) := by
  obtain ⟨idx, hn, hi, hr⟩ := build_row hv hd hf ht h hm
  simp only [walk_row _ hr]
  have sp := fold_num x ts tot sq idx hn s j
  constructor
  · intro t htj hdep
    have := sp.1 ((hi j).2 ⟨t, htj, hdep⟩)
    have e : ts.getD j 0 = t := by simp [List.getD_eq_getElem?_getD, htj]
    rw [e, ← pow_two] at this
    exact this
  · intro hno
    exact sp.2 (fun hj => by obtain ⟨t, h1, h2⟩ := (hi j).1 hj; exact hno t h1 h2)

/-- Symbolic targets: the value of the row is counted once in the histograms of the targets named for the feature, and nothing else changes. -/
theorem C132_symbolic {vars : List K} {deps : List (K × List K)} {fs ts : List ℕ} {n : ℕ} {M : ℕ → List Int} (hv : vars.Nodup)
    (hd : Dict.WF deps) (hf : ∀ f ∈ fs, f < vars.length) (ht : ∀ t ∈ ts, t < vars.length) (h : build vars deps fs ts n = .ok M)
    {v : ℕ} (hm : v ∈ fs) (x : ℕ → ℕ) (tot : ℕ → ℕ → Int) (s : Hists) (j u : ℕ) :
    let s' := walk (addSym x ts tot) (M v) s
    (∀ t, ts[j]? = some t → Depends vars deps v t → u = x t →
      s'.left j u = s.left j u + 1 ∧ s'.right j u = tot j u - (s.left j u + 1))
    ∧ ((∀ t, ts[j]? = some t → Depends vars deps v t → u ≠ x t) → s'.left j u = s.left j u ∧ s'.right j u = s.right j u) := by
  obtain ⟨idx, hn, hi, hr⟩ := build_row hv hd hf ht h hm
  simp only [walk_row _ hr]
  have sp := fold_sym x ts tot idx hn s j u
  constructor
  · intro t htj hdep hu
    have e : ts.getD j 0 = t := by simp [List.getD_eq_getElem?_getD, htj]
    exact sp.1 ⟨(hi j).2 ⟨t, htj, hdep⟩, by rw [e]; exact hu⟩
  · intro hno
    refine sp.2 (fun hj => ?_)
    obtain ⟨t, h1, h2⟩ := (hi j).1 hj.1
    have e : ts.getD j 0 = t := by simp [List.getD_eq_getElem?_getD, h1]
    exact hno t h1 h2 (by rw [← e]; exact hj.2)

/-- When the learner accepts the dependencies: every variable in them belongs to the tree, and every feature has an entry; otherwise the
failure is a `ValueError` or a `KeyError`. -/
theorem C132_accepted {vars : List K} {deps : List (K × List K)} {fs ts : List ℕ} {n : ℕ} (hv : vars.Nodup)
    (hn : ts.length ≤ n) (hts : ts ≠ []) :
    (¬ Known vars deps → build vars deps fs ts n = .error .valueError)
    ∧ (Known vars deps → (∀ f ∈ fs, ∃ a ∈ deps.map Prod.fst, vars[f]? = some a) → ∃ M, build vars deps fs ts n = .ok M)
    ∧ (Known vars deps → (∃ f ∈ fs, ∀ a ∈ deps.map Prod.fst, vars[f]? ≠ some a) → build vars deps fs ts n = .error .keyError) := by
  have hd := depIndices_total vars deps []
  have key : ∀ D : List (ℕ × List ℕ), Known vars deps →
      (∀ i, i ∈ D.map Prod.fst ↔ i ∈ ([] : List (ℕ × List ℕ)).map Prod.fst ∨ ∃ a ∈ deps.map Prod.fst, vars.idxOf a = i) →
      ∀ f ∈ fs, (f ∈ D.map Prod.fst ↔ ∃ a ∈ deps.map Prod.fst, vars[f]? = some a) := by
    intro D hk hD f hfm
    rw [hD]
    simp only [List.map_nil, List.not_mem_nil, false_or]
    refine exists_congr fun a => and_congr_right fun ham => ?_
    obtain ⟨p, hp, e⟩ := List.mem_map.1 ham
    have ha : a ∈ vars := by rw [← e]; exact (hk p hp).1
    constructor
    · intro h
      have hlt := List.idxOf_lt_length_iff.2 ha
      rw [← h, List.getElem?_eq_getElem hlt, List.getElem_idxOf hlt]
    · intro h; exact idxOf_get hv h
  refine ⟨fun hk => ?_, fun hk ha => ?_, fun hk ha => ?_⟩
  · simp only [build, hd.2 hk, bind, Except.bind]
  · obtain ⟨D, hD, hm⟩ := hd.1 hk
    simp only [build, hD, bind, Except.bind]
    exact (matrix_total hn fs _).1 (Or.inr fun f hfm => (key D hk hm f hfm).2 (ha f hfm))
  · obtain ⟨D, hD, hm⟩ := hd.1 hk
    simp only [build, hD, bind, Except.bind]
    refine (matrix_total hn fs _).2 ?_
    rintro (h | h)
    · exact hts h
    · obtain ⟨f, hfm, hno⟩ := ha
      obtain ⟨a, ham, e⟩ := (key D hk hm f hfm).1 (h f hfm)
      exact hno a ham e

omit [DecidableEq K] in
/-- Without given dependencies every target of the tree is looked at for every feature. -/
theorem C132_default {vars features targets : List K} (hs : ∀ a ∈ features, a ∈ vars) (ht : ∀ b ∈ targets, b ∈ vars) {v t : ℕ} {a b : K}
    (ha : vars[v]? = some a) (hb : vars[t]? = some b) :
    Known vars (default features targets) ∧ (Depends vars (default features targets) v t ↔ a ∈ features ∧ b ∈ targets) := by
  constructor
  · intro p hp
    simp only [default, List.mem_map] at hp
    obtain ⟨c, hc, rfl⟩ := hp
    exact ⟨hs c hc, ht⟩
  · simp only [Depends, default, List.mem_map, ha, hb, Option.some.injEq]
    constructor
    · rintro ⟨_, _, ds, rfl, rfl, ⟨c, hc, e⟩, hm⟩
      cases e
      exact ⟨hc, hm⟩
    · rintro ⟨h1, h2⟩
      exact ⟨a, b, targets, rfl, rfl, ⟨a, h1, rfl⟩, h2⟩

/-- Disagreement: `dependencies` is offered as a sparse structure ("having this sparse may speed up training a lot"), but leaving a feature
out does not mean that nothing depends on it: with an entry for the first feature only, learning fails with a `KeyError`; the same feature
with an empty list is accepted. -/
theorem C132_violated_sparse :
    build ["a", "b"] [("a", ["b"])] [0, 1] [1] 1 = .error .keyError
    ∧ ∃ M, build ["a", "b"] [("a", ["b"]), ("b", [])] [0, 1] [1] 1 = .ok M ∧ M 0 = [0] ∧ M 1 = [-1] := by
  refine ⟨rfl, _, rfl, by decide +kernel, by decide +kernel⟩

/-- Three variables; for the first the third is named, for the third the first two; targets are the first and the third. -/
example : ∃ M, build ["a", "b", "c"] [("a", ["c"]), ("c", ["a", "b"])] [0, 2] [0, 2] 3 = .ok M ∧ M 0 = [1, -1, -1]
    ∧ M 2 = [0, -1, -1] ∧ M 1 = [-1, -1, -1]
    ∧ (walk (addNum (fun t => t + 5) [0, 2] (fun _ => 20) (fun _ => 100)) (M 0) ⟨fun _ => 1, fun _ => 2, fun _ => 3, fun _ => 4⟩).left 1 = 8 := by
  refine ⟨_, rfl, by decide +kernel, by decide +kernel, by decide +kernel, by decide +kernel⟩
example : ["a", "b", "c"].Nodup ∧ Dict.WF [("a", ["c"]), ("c", ["a", "b"])] ∧ Known ["a", "b", "c"] [("a", ["c"]), ("c", ["a", "b"])] := by
  refine ⟨by decide, by unfold Dict.WF; decide, by unfold Known; decide⟩
example : build ["a", "b"] [("a", ["x"])] [0] [1] 1 = .error .valueError := rfl

end Verif.Dep
