import Verif.Table.Props

/-!
# Variables inferred from a data frame (C93)
-/

namespace Verif.Tab

/-- A cell that is not missing, in a column of this type. -/
def Typed : DType → Cell → Prop
  | .object, x => x ≠ .nan
  | .bool, x => ∃ b, x = .bool b
  | .float, x => ∃ q, x = .num q
  | .int, x => ∃ z, x = .int z
  | .other, _ => False

theorem mem_unique {l : List Cell} {x : Cell} : x ∈ unique l ↔ x ∈ l := by simp [unique]

theorem nodup_unique (l : List Cell) : (unique l).Nodup := by
  unfold unique
  rw [List.nodup_reverse]
  exact List.nodup_dedup _

theorem mem_intLabels {lo hi : ℤ} {x : Cell} : x ∈ intLabels lo hi ↔ ∃ z, x = .int z ∧ lo ≤ z ∧ z ≤ hi := by
  unfold intLabels
  rw [List.mem_map]
  constructor
  · rintro ⟨i, hi', rfl⟩
    rw [List.mem_range] at hi'
    exact ⟨lo + i, rfl, by omega, by omega⟩
  · rintro ⟨z, rfl, h1, h2⟩
    refine ⟨(z - lo).toNat, ?_, ?_⟩
    · rw [List.mem_range]; omega
    · congr 1; omega

theorem nodup_intLabels (lo hi : ℤ) : (intLabels lo hi).Nodup := by
  unfold intLabels
  refine List.Nodup.map ?_ List.nodup_range
  intro i j h
  injection h with h
  omega

theorem mem_ints {l : List Cell} {z : ℤ} : z ∈ ints l ↔ .int z ∈ l := by
  unfold ints
  rw [List.mem_filterMap]
  constructor
  · rintro ⟨x, hx, h⟩
    cases x <;> simp at h
    subst h
    exact hx
  · intro h
    exact ⟨_, h, rfl⟩

/-- What a column of a type is taken to be: the labels of a symbolic domain are the values that occur, a boolean one has both
truth values, an integer one the integers from the least to the greatest value, and numbers are scaled by mean and standard
deviation of the different values (or not at all). -/
def DomainOf (std : List ℚ → ℚ) (scale : Bool) : DType → List Cell → Enc → Prop
  | .object, col, e => ∃ labels : List Cell, e = .dict labels ∧ labels.Nodup ∧ ∀ x, x ∈ labels ↔ x ∈ col
  | .bool, _, e => e = .dict [.bool false, .bool true]
  | .int, col, e => ∃ lo hi : ℤ, .int lo ∈ col ∧ .int hi ∈ col ∧ ∃ labels : List Cell, e = .dict labels ∧ labels.Nodup ∧
      (∀ x, x ∈ labels ↔ ∃ z, x = .int z ∧ lo ≤ z ∧ z ≤ hi) ∧ ∀ z, .int z ∈ col → lo ≤ z ∧ z ≤ hi
  | .float, col, e => if scale then ∃ vs : List ℚ, vs.Nodup ∧ (∀ q, q ∈ vs ↔ .num q ∈ col) ∧
      e = .scaled (vs.sum / vs.length) (if std vs = 0 then 1 else std vs) else e = .ident
  | .other, _, _ => False

theorem mem_nums {l : List Cell} {q : ℚ} : q ∈ nums l ↔ .num q ∈ l := by
  unfold nums
  rw [List.mem_filterMap]
  constructor
  · rintro ⟨x, hx, h⟩
    cases x <;> simp at h
    subst h
    exact hx
  · intro h
    exact ⟨_, h, rfl⟩

theorem nodup_nums {l : List Cell} (h : l.Nodup) : (nums l).Nodup := by
  unfold nums
  refine List.Nodup.filterMap ?_ h
  intro a b c ha hb
  cases a <;> cases b <;> simp_all

theorem inferCol_ok (std : List ℚ → ℚ) (scale removeNan : Bool) {x : String × DType × List Cell} (hne : x.2.2 ≠ [])
    (ht : ∀ c ∈ x.2.2, Typed x.2.1 c) :
    ∃ var, inferCol std scale removeNan (fun _ => none) x = .ok var ∧ var.name = x.1 ∧
      DomainOf std scale x.2.1 x.2.2 var.enc ∧ EncOK var.enc ∧ ∀ c ∈ x.2.2, c ≠ .nan ∧ InDomain var.enc c := by
  obtain ⟨name, dtype, col⟩ := x
  simp only at hne ht ⊢
  obtain ⟨c0, hc0⟩ := List.exists_mem_of_ne_nil col hne
  cases dtype with
  | other => exact absurd (ht c0 hc0) id
  | object =>
    have hu : unique col ≠ [] := fun h => by
      have := mem_unique.2 hc0
      rw [h] at this
      cases this
    refine ⟨⟨name, .dict (unique col)⟩, by simp [inferCol, hu], rfl, ⟨_, rfl, nodup_unique _, fun x => mem_unique⟩,
      nodup_unique _, fun c hc => ⟨ht c hc, mem_unique.2 hc⟩⟩
  | bool =>
    refine ⟨⟨name, .dict [.bool false, .bool true]⟩, by simp [inferCol], rfl, rfl, by simp [EncOK], fun c hc => ?_⟩
    obtain ⟨b, rfl⟩ := ht c hc
    cases b <;> simp [InDomain]
  | int =>
    obtain ⟨z0, rfl⟩ := ht c0 hc0
    have hne' : ints col ≠ [] := fun h => by
      have := mem_ints.2 hc0
      rw [h] at this
      cases this
    obtain ⟨lo, hlo⟩ : ∃ lo, (ints col).min? = some lo := by
      cases h : (ints col).min? with
      | none => exact absurd (List.min?_eq_none_iff.1 h) hne'
      | some lo => exact ⟨lo, rfl⟩
    obtain ⟨hi, hhi⟩ : ∃ hi, (ints col).max? = some hi := by
      cases h : (ints col).max? with
      | none => exact absurd (List.max?_eq_none_iff.1 h) hne'
      | some hi => exact ⟨hi, rfl⟩
    have h1 := List.min?_eq_some_iff.1 hlo
    have h2 := List.max?_eq_some_iff.1 hhi
    have hb : ∀ z, Cell.int z ∈ col → lo ≤ z ∧ z ≤ hi := fun z hz => ⟨h1.2 z (mem_ints.2 hz), h2.2 z (mem_ints.2 hz)⟩
    refine ⟨⟨name, .dict (intLabels lo hi)⟩, by simp [inferCol, hlo, hhi], rfl,
      ⟨lo, hi, mem_ints.1 h1.1, mem_ints.1 h2.1, _, rfl, nodup_intLabels _ _, fun x => mem_intLabels, hb⟩,
      nodup_intLabels _ _, fun c hc => ?_⟩
    obtain ⟨z, rfl⟩ := ht c hc
    exact ⟨by simp, mem_intLabels.2 ⟨z, rfl, hb z hc⟩⟩
  | float =>
    have hnan : ∀ c ∈ col, c ≠ .nan := by
      intro c hc e
      obtain ⟨q, h⟩ := ht c hc
      rw [e] at h
      cases h
    have hin : ∀ e, (e = .ident ∨ ∃ m s, e = .scaled m s) → ∀ c ∈ col, c ≠ .nan ∧ InDomain e c := by
      intro e he c hc
      refine ⟨hnan c hc, ?_⟩
      obtain ⟨q, rfl⟩ := ht c hc
      rcases he with rfl | ⟨m, s, rfl⟩ <;> rfl
    cases scale with
    | false => exact ⟨⟨name, .ident⟩, by simp [inferCol], rfl, rfl, trivial, hin _ (.inl rfl)⟩
    | true =>
      have hfil : (if removeNan then col.filter (fun x => x ≠ .nan) else col) = col := by
        cases removeNan with
        | false => rfl
        | true =>
          rw [if_pos rfl, List.filter_eq_self]
          intro c hc
          simp [hnan c hc]
      have hno : Cell.nan ∉ unique col := fun h => hnan _ (mem_unique.1 h) rfl
      refine ⟨⟨name, .scaled ((nums (unique col)).sum / (nums (unique col)).length)
        (if std (nums (unique col)) = 0 then 1 else std (nums (unique col)))⟩, ?_, rfl, ?_, ?_, hin _ (.inr ⟨_, _, rfl⟩)⟩
      · unfold inferCol
        simp only [if_true]
        rw [hfil]
        unfold numericType
        rw [if_neg hno]
        rfl
      · show ∃ vs : List ℚ, _
        exact ⟨nums (unique col), nodup_nums (nodup_unique _), fun q => by rw [mem_nums, mem_unique], rfl⟩
      · show (if std (nums (unique col)) = 0 then (1 : ℚ) else std (nums (unique col))) ≠ 0
        by_cases h0 : std (nums (unique col)) = 0
        · rw [if_pos h0]; exact one_ne_zero
        · rw [if_neg h0]; exact h0

/-- **C93** The variables inferred from a data frame without missing values have the names of its columns, in their order,
and the smallest domains of their types that contain the data; and with these variables the data frame is accepted as training
data and represented by the table. -/
theorem C93_inferred (std : List ℚ → ℚ) (scale removeNan : Bool) (df : List (String × DType × List Cell)) {n : ℕ} (hn : n ≠ 0)
    (hdf : df ≠ []) (hlen : ∀ x ∈ df, x.2.2.length = n) (ht : ∀ x ∈ df, ∀ c ∈ x.2.2, Typed x.2.1 c) :
    ∃ vars t, infer std scale removeNan (fun _ => none) df = .ok vars ∧
      List.Forall₂ (fun x (var : Var) => var.name = x.1 ∧ DomainOf std scale x.2.1 x.2.2 var.enc) df vars ∧
      preprocess vars (some (.frame (df.map (·.1)) (df.map (·.2.2)))) none none = .ok t ∧
      Represents vars n (df.map (·.2.2)) t := by
  have hne : ∀ x ∈ df, x.2.2 ≠ [] := by
    intro x hx e
    have := hlen x hx
    rw [e] at this
    exact hn this.symm
  obtain ⟨vars, hv⟩ := mapM_all (f := inferCol std scale removeNan (fun _ => none)) (l := df)
    (fun x hx => (inferCol_ok std scale removeNan (hne x hx) (ht x hx)).imp (fun _ h => h.1))
  have hf := (mapM_ok_iff _ _ _).1 hv
  have hall : List.Forall₂ (fun (x : String × DType × List Cell) (var : Var) => x ∈ df ∧ var.name = x.1 ∧
      DomainOf std scale x.2.1 x.2.2 var.enc ∧ EncOK var.enc ∧ ∀ c ∈ x.2.2, c ≠ .nan ∧ InDomain var.enc c) df vars := by
    rw [List.forall₂_iff_get] at hf ⊢
    refine ⟨hf.1, fun i h1 h2 => ?_⟩
    have hx : df.get ⟨i, h1⟩ ∈ df := List.get_mem _ _
    obtain ⟨var, h3, h4⟩ := inferCol_ok std scale removeNan (hne _ hx) (ht _ hx)
    have := hf.2 i h1 h2
    rw [h3] at this
    injection this with this
    rw [← this]
    exact ⟨hx, h4⟩
  have hlv : df.length = vars.length := hall.length_eq
  have hnames : df.map (·.1) = vars.map (·.name) := by
    refine List.ext_getElem (by simpa using hlv) (fun i h1 h2 => ?_)
    rw [List.length_map] at h1 h2
    have := (List.forall₂_iff_get.1 hall).2 i h1 h2
    simp only [List.getElem_map]
    exact this.2.1.symm
  have hget : ∀ (v : ℕ) (var : Var), vars[v]? = some var → ∃ x, df[v]? = some x ∧ EncOK var.enc ∧
      ∀ c ∈ x.2.2, c ≠ .nan ∧ InDomain var.enc c := by
    intro v var hvar
    obtain ⟨h2, rfl⟩ := List.getElem?_eq_some_iff.1 hvar
    have h1 : v < df.length := by rw [hlv]; exact h2
    have := (List.forall₂_iff_get.1 hall).2 v h1 h2
    exact ⟨_, List.getElem?_eq_getElem h1, this.2.2.2⟩
  have hcells : ∀ (r v : ℕ) (var : Var) (x : Cell), vars[v]? = some var → cellAt (df.map (·.2.2)) r v = some x →
      x ≠ .nan ∧ InDomain var.enc x := by
    intro r v var x hvar hx
    obtain ⟨y, h1, -, h2⟩ := hget v var hvar
    unfold cellAt at hx
    rw [List.getElem?_map, h1] at hx
    exact h2 x (List.mem_of_getElem? hx)
  have htr : IsTranspose n vars.length ((List.range n).map (fun r => (df.map (·.2.2)).map (fun c => c.getD r .nan)))
      (df.map (·.2.2)) := by
    refine ⟨by simp, by simp [hlv], ?_, ?_, ?_⟩
    · intro row hrow
      obtain ⟨r, -, rfl⟩ := List.mem_map.1 hrow
      simp [hlv]
    · intro col hcol
      obtain ⟨x, hx, rfl⟩ := List.mem_map.1 hcol
      exact hlen x hx
    · intro r v
      unfold cellAt
      by_cases hr : r < n
      · cases hx : df[v]? with
        | none => simp [hx, hr]
        | some x =>
          have hl : r < x.2.2.length := by rw [hlen x (List.mem_of_getElem? hx)]; exact hr
          simp [hx, hr, hl]
      · cases hx : df[v]? with
        | none => simp [hx, hr]
        | some x =>
          have hl : ¬ r < x.2.2.length := by rw [hlen x (List.mem_of_getElem? hx)]; exact hr
          simp [hx, hr, hl]
  have hvne : vars ≠ [] := by
    rintro rfl
    exact hdf (List.length_eq_zero_iff.1 hlv)
  have henc : ∀ var ∈ vars, EncOK var.enc := by
    intro var hvar
    obtain ⟨v, hv'⟩ := List.getElem?_of_mem hvar
    obtain ⟨_, -, h, -⟩ := hget v var hv'
    exact h
  obtain ⟨t, h1, -, -, -, -, -, -, h2⟩ := C92_forms htr hvne hn henc hcells
  rw [← hnames] at h2
  exact ⟨vars, t, hv, hall.imp (fun _ _ h => ⟨h.2.1, h.2.2.1⟩), h2, h1⟩

/-- A frame with a column of each type. -/
def exFrame : List (String × DType × List Cell) :=
  [("s", .object, [.str "b", .str "a", .str "b"]), ("i", .int, [.int 4, .int 2, .int 2]), ("f", .float, [.num 1, .num 1, .num 3]),
    ("t", .bool, [.bool true, .bool true, .bool true])]

example : (∀ x ∈ exFrame, x.2.2.length = 3) ∧ (∀ x ∈ exFrame, ∀ c ∈ x.2.2, Typed x.2.1 c) ∧
    infer (fun _ => 1) true false (fun _ => none) exFrame = .ok [⟨"s", .dict [.str "b", .str "a"]⟩,
      ⟨"i", .dict [.int 2, .int 3, .int 4]⟩, ⟨"f", .scaled 2 1⟩, ⟨"t", .dict [.bool false, .bool true]⟩] := by
  refine ⟨by decide, ?_, by decide +kernel⟩
  simp [exFrame, Typed]

/-- **C93** Domains given for a column are taken as they are. -/
theorem C93_excluded (std : List ℚ → ℚ) (scale removeNan : Bool) (excluded : String → Option Enc)
    (df : List (String × DType × List Cell)) {vars : List Var} (h : infer std scale removeNan excluded df = .ok vars) :
    vars.map (·.name) = df.map (·.1) ∧
      ∀ (v : ℕ) (var : Var) (e : Enc), vars[v]? = some var → excluded var.name = some e → var.enc = e := by
  have hf := (mapM_ok_iff _ _ _).1 h
  have hone : ∀ x var, inferCol std scale removeNan excluded x = .ok var →
      var.name = x.1 ∧ ∀ e, excluded x.1 = some e → var.enc = e := by
    rintro ⟨name, dtype, col⟩ var hx
    cases he : excluded name with
    | some e =>
      cases dtype <;> simp [inferCol, he] at hx <;> subst hx <;> simp
    | none =>
      simp only [inferCol, he] at hx
      refine ⟨?_, fun e h' => by cases h'⟩
      cases dtype with
      | other => cases hx
      | bool => injection hx with hx; rw [← hx]
      | object =>
        simp only at hx
        by_cases hu : unique col = []
        · rw [if_pos hu] at hx; cases hx
        · rw [if_neg hu] at hx; injection hx with hx; rw [← hx]
      | float =>
        simp only [bind, Except.bind] at hx
        cases scale with
        | false => simp at hx; rw [← hx]
        | true =>
          simp only [if_true] at hx
          cases hn : numericType std (unique (if removeNan then col.filter (fun x => x ≠ .nan) else col)) with
          | error e => rw [hn] at hx; cases hx
          | ok e => rw [hn] at hx; injection hx with hx; rw [← hx]
      | int =>
        simp only at hx
        cases h1 : (ints col).min? with
        | none => rw [h1] at hx; cases hx
        | some lo =>
          cases h2 : (ints col).max? with
          | none => rw [h1, h2] at hx; cases hx
          | some hi => rw [h1, h2] at hx; injection hx with hx; rw [← hx]
  have hl := hf.length_eq
  constructor
  · refine List.ext_getElem (by simp [hl]) (fun i h1 h2 => ?_)
    rw [List.length_map] at h1 h2
    simp only [List.getElem_map]
    exact (hone _ _ ((List.forall₂_iff_get.1 hf).2 i h2 h1)).1
  · intro v var e hvar he
    obtain ⟨h2, rfl⟩ := List.getElem?_eq_some_iff.1 hvar
    have h1 : v < df.length := by rw [hl]; exact h2
    have := hone _ _ ((List.forall₂_iff_get.1 hf).2 v h1 h2)
    refine this.2 e ?_
    simp only [List.get_eq_getElem] at this
    simp only [List.get_eq_getElem]
    rw [← this.1]
    exact he

example : infer (fun _ => 1) false false (fun s => if s = "i" then some .ident else none)
    [("s", .object, [.str "b"]), ("i", .int, [.int 4])] = .ok [⟨"s", .dict [.str "b"]⟩, ⟨"i", .ident⟩] := by decide +kernel

/-- **C93** Frames for which no variables are inferred: a column of an unknown type, even if its domain is given, one of labels
without rows, and a number that is missing when scaling is asked for without removing missing values. -/
theorem C93_errors (std : List ℚ → ℚ) (scale removeNan : Bool) (excluded : String → Option Enc)
    (df : List (String × DType × List Cell))
    (h : (∃ x ∈ df, x.2.1 = .other) ∨ (∃ x ∈ df, x.2.1 = .object ∧ x.2.2 = [] ∧ excluded x.1 = none) ∨
      (scale = true ∧ removeNan = false ∧ ∃ x ∈ df, x.2.1 = .float ∧ .nan ∈ x.2.2 ∧ excluded x.1 = none)) :
    ∃ e, infer std scale removeNan excluded df = .error e := by
  cases hv : infer std scale removeNan excluded df with
  | error e => exact ⟨e, rfl⟩
  | ok vars =>
    exfalso
    have hone : ∀ x ∈ df, ∃ var, inferCol std scale removeNan excluded x = .ok var := by
      intro x hx
      obtain ⟨i, hi⟩ := List.getElem?_of_mem hx
      obtain ⟨b, -, hb⟩ := (mapM_get hv).2 i x hi
      exact ⟨b, hb⟩
    rcases h with ⟨⟨name, d, col⟩, hx, h1⟩ | ⟨⟨name, d, col⟩, hx, h1, h2, h3⟩ | ⟨rfl, rfl, ⟨name, d, col⟩, hx, h1, h2, h3⟩
    · simp only at h1
      subst h1
      obtain ⟨var, h⟩ := hone _ hx
      cases he : excluded name <;> simp [inferCol] at h
    · simp only at h1 h2 h3
      subst h1 h2
      obtain ⟨var, h⟩ := hone _ hx
      simp [inferCol, h3, unique] at h
    · simp only at h1 h2 h3
      subst h1
      obtain ⟨var, h⟩ := hone _ hx
      have := mem_unique.2 h2
      simp [inferCol, h3, numericType, this, bind, Except.bind] at h

example : infer (fun _ => 1) true false (fun _ => none) [("f", .float, [.num 1, .nan])] = .error .valueError := by decide +kernel

/-- **C93** violated: a missing value in a column of labels is made a label of the inferred domain (`unique` keeps it,
`variables.py` 524), so the domain has a value that does not occur in the table: the same frame is turned into a table with NaN
there, not with the number of that label. -/
theorem C93_violated_missing :
    ∃ (df : List (String × DType × List Cell)) (vars : List Var),
      infer (fun _ => 1) false true (fun _ => none) df = .ok vars ∧
      vars = [⟨"s", .dict [.str "a", .nan]⟩] ∧ df = [("s", .object, [.str "a", .nan])] ∧
      preprocess vars (some (.frame (df.map (·.1)) (df.map (·.2.2)))) none none = .ok [[.num 0, .nan]] :=
  ⟨[("s", .object, [.str "a", .nan])], [⟨"s", .dict [.str "a", .nan]⟩], by decide +kernel, rfl, rfl, by decide +kernel⟩

/-- **C93** violated: scaled numbers need not have mean 0, because mean and deviation are those of the *different* values
(`variables.py` 532-535): 0, 0 and 3 become -1, -1 and 1. -/
theorem C93_violated_scale (std : List ℚ → ℚ) (hstd : std [0, 3] = 3 / 2) :
    ∃ (df : List (String × DType × List Cell)) (vars : List Var),
      df = [("f", .float, [.num 0, .num 0, .num 3])] ∧
      infer std true true (fun _ => none) df = .ok vars ∧
      preprocess vars (some (.frame (df.map (·.1)) (df.map (·.2.2)))) none none = .ok [[.num (-1), .num (-1), .num 1]] := by
  refine ⟨[("f", .float, [.num 0, .num 0, .num 3])], [⟨"f", .scaled (3 / 2) (3 / 2)⟩], rfl, ?_, by decide +kernel⟩
  have h1 : unique ([.num 0, .num 0, .num 3] : List Cell) = [.num 0, .num 3] := by decide +kernel
  have h2 : nums [.num 0, .num 3] = [0, 3] := rfl
  have h3 : ([.num 0, .num 0, .num 3] : List Cell).filter (fun x => x ≠ .nan) = [.num 0, .num 0, .num 3] := by decide +kernel
  have h4 : inferCol std true true (fun _ => none) ("f", .float, [.num 0, .num 0, .num 3]) = .ok ⟨"f", .scaled (3 / 2) (3 / 2)⟩ := by
    simp only [inferCol, if_true, numericType]
    rw [h3, h1, h2, hstd]
    rw [if_neg (by decide)]
    simp only [bind, Except.bind]
    norm_num
  simp [infer, h4, bind, Except.bind, pure, Except.pure]

end Verif.Tab
