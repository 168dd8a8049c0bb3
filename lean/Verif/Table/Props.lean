import Verif.Table.Lemmas
import Verif.Learn.Spec

/-!
# Data enter a tree as they are (C92), and variables can be inferred from them (C93)
-/

namespace Verif.Tab

/-- **C92** All forms of data give the same table: a list or an array of rows, passed as `data` or as `rows`, a list or an
array of columns, and a data frame.  The table represents the data: it has their shape, and every number stands for the cell at
its position. -/
theorem C92_forms {vars : List Var} {n : ℕ} {rows cols : List (List Cell)} (ht : IsTranspose n vars.length rows cols)
    (hv : vars ≠ []) (hn : n ≠ 0) (he : ∀ var ∈ vars, EncOK var.enc)
    (hd : ∀ (r v : ℕ) (var : Var) (x : Cell), vars[v]? = some var → cellAt cols r v = some x → x ≠ .nan ∧ InDomain var.enc x) :
    ∃ t, Represents vars n cols t ∧
      preprocess vars (some (.list rows)) none none = .ok t ∧
      preprocess vars none (some (.list rows)) none = .ok t ∧
      preprocess vars (some (.array vars.length rows)) none none = .ok t ∧
      preprocess vars none (some (.array vars.length rows)) none = .ok t ∧
      preprocess vars none none (some (.list cols)) = .ok t ∧
      preprocess vars none none (some (.array n cols)) = .ok t ∧
      preprocess vars (some (.frame (vars.map (·.name)) cols)) none none = .ok t := by
  have hget : ∀ (v : ℕ) (var : Var) (col : List Cell), vars[v]? = some var → cols[v]? = some col →
      col.length = n ∧ ∀ x ∈ col, x ≠ .nan ∧ InDomain var.enc x := by
    intro v var col h1 h2
    refine ⟨ht.height _ (List.mem_of_getElem? h2), fun x hx => ?_⟩
    obtain ⟨r, hr⟩ := List.getElem?_of_mem hx
    exact hd r v var x h1 (by unfold cellAt; rw [h2]; exact hr)
  have hzip : ∀ a ∈ vars.zip cols, a.2.length = n ∧ EncOK a.1.enc ∧ ∀ x ∈ a.2, x ≠ .nan ∧ InDomain a.1.enc x := by
    rintro ⟨var, col⟩ ha
    obtain ⟨v, hv⟩ := List.getElem?_of_mem ha
    rw [List.getElem?_zip_eq_some] at hv
    exact ⟨(hget v var col hv.1 hv.2).1, he _ (List.mem_of_getElem? hv.1), (hget v var col hv.1 hv.2).2⟩
  have hcol : ∀ a ∈ vars.zip cols, ∃ l, column n a = .ok l ∧ a.2.mapM (encode a.1.enc) = .ok l := by
    intro a ha
    obtain ⟨h1, h2, h3⟩ := hzip a ha
    obtain ⟨l, hl⟩ := mapM_all (f := encode a.1.enc) (l := a.2) (fun x hx => by
      obtain ⟨q, hq, -⟩ := encode_ok h2 (h3 x hx).2
      exact ⟨_, hq⟩)
    refine ⟨l, ?_, hl⟩
    unfold column
    rw [hl]
    simp only [bind, Except.bind]
    unfold writeCol
    rw [if_pos (by rw [(mapM_get hl).1, h1])]
  obtain ⟨t, hT⟩ := mapM_all (fun a ha => (hcol a ha).imp (fun _ h => h.1))
  have hfrom : fromColumns vars n cols = .ok t := by
    unfold fromColumns
    rw [hT, ht.cols_length]
    simp [bind, Except.bind]
  obtain ⟨r0, rs, hrows⟩ : ∃ r0 rs, rows = r0 :: rs := by
    cases rows with
    | nil => exact absurd ht.rows_length.symm hn
    | cons a l => exact ⟨a, l, rfl⟩
  obtain ⟨c0, cs, hcols⟩ : ∃ c0 cs, cols = c0 :: cs := by
    cases cols with
    | nil => exact absurd (List.length_eq_zero_iff.1 ht.cols_length.symm) hv
    | cons a l => exact ⟨a, l, rfl⟩
  have hc0 : c0.length = n := ht.height c0 (by rw [hcols]; simp)
  have hpick := pick_all ht
  subst hrows
  subst hcols
  have hlen : rs.length + 1 = n := ht.rows_length
  refine ⟨t, ?_, ?_, ?_, ?_, ?_, ?_, ?_, ?_⟩
  · obtain ⟨h1, h2⟩ := mapM_get hT
    refine ⟨by rw [h1, List.length_zip, ht.cols_length, Nat.min_self], ?_, ?_⟩
    · intro c hc
      obtain ⟨a, ha, hac⟩ := forall₂_mem_right ((mapM_ok_iff _ _ _).1 hT) hc
      obtain ⟨l, h3, h4⟩ := hcol a ha
      rw [h3] at hac
      cases hac
      rw [(mapM_get h4).1, (hzip a ha).1]
    · intro r v var x hvar hx
      obtain ⟨col, hcolv, hr⟩ := Option.bind_eq_some_iff.1 hx
      have hz := zip_get hvar hcolv
      obtain ⟨l, hl, h3⟩ := h2 v _ hz
      obtain ⟨l', h4, h5⟩ := hcol _ (List.mem_of_getElem? hz)
      rw [h3] at h4
      cases h4
      obtain ⟨y, hy, h6⟩ := (mapM_get h5).2 r x hr
      obtain ⟨q, h7, h8⟩ := encode_ok (he _ (List.mem_of_getElem? hvar)) (hd r v var x hvar hx).2
      refine ⟨q, ?_, h8⟩
      unfold cellAt
      rw [hl]
      simp only [Option.bind_some]
      rw [hy]
      simp only at h6
      rw [h7] at h6
      cases h6
      rfl
  · simp [preprocess, rowsOf, columnsOf, hpick, bind, Except.bind, hc0, hfrom]
  · simp [preprocess, rowsOf, columnsOf, hpick, bind, Except.bind, hc0, hfrom]
  · simp [preprocess, rowsOf, columnsOf, hpick, bind, Except.bind, hlen, hfrom]
  · simp [preprocess, rowsOf, columnsOf, hpick, bind, Except.bind, hlen, hfrom]
  · simp [preprocess, rowsOf, columnsOf, bind, Except.bind, hc0, hfrom]
  · simp [preprocess, rowsOf, columnsOf, bind, Except.bind, hfrom]
  · have : fromFrame vars (vars.map (·.name)) (c0 :: cs) = .ok t := by
      unfold fromFrame
      rw [if_neg (by simp), ← hT]
      refine mapM_congr' (fun a ha => ?_)
      obtain ⟨l, h1, h2⟩ := hcol a ha
      rw [h1, ← h2]
      refine mapM_congr' (fun x hx => ?_)
      obtain ⟨q, h3, -⟩ := encode_ok (hzip a ha).2.1 ((hzip a ha).2.2 x hx).2
      rw [h3, encodeFrame_ok ((hzip a ha).2.2 x hx).1 h3]
    simp [preprocess, rowsOf, columnsOf, bind, Except.bind, this]

/-- Two columns, one of labels and one of numbers, and the same data by rows. -/
example : ∃ t, Represents [⟨"a", .dict [.str "x", .str "y"]⟩, ⟨"b", .scaled 2 4⟩] 2 [[.str "y", .str "x"], [.num 6, .num (-2)]] t ∧
    t = [[.num 1, .num 0], [.num 1, .num (-1)]] := by
  obtain ⟨t, h1, h2, -⟩ := C92_forms (vars := [⟨"a", .dict [.str "x", .str "y"]⟩, ⟨"b", .scaled 2 4⟩]) (n := 2)
    (rows := [[.str "y", .num 6], [.str "x", .num (-2)]]) (cols := [[.str "y", .str "x"], [.num 6, .num (-2)]])
    ⟨rfl, rfl, by simp, by simp, by
      intro r v
      match r, v with
      | 0, 0 => rfl
      | 0, 1 => rfl
      | 1, 0 => rfl
      | 1, 1 => rfl
      | 0, v + 2 => simp [cellAt]
      | 1, v + 2 => simp [cellAt]
      | r + 2, 0 => simp [cellAt]
      | r + 2, 1 => simp [cellAt]
      | r + 2, v + 2 => simp [cellAt]⟩ (by simp) (by simp) (by simp [EncOK]) (by
      intro r v var x h1 h2
      match r, v with
      | 0, 0 => cases h1; cases h2; simp [InDomain]
      | 0, 1 => cases h1; cases h2; simp [InDomain, Cell.number]
      | 1, 0 => cases h1; cases h2; simp [InDomain]
      | 1, 1 => cases h1; cases h2; simp [InDomain, Cell.number]
      | _, v + 2 => simp [cellAt] at h2
      | r + 2, 0 => simp [cellAt] at h2
      | r + 2, 1 => simp [cellAt] at h2)
  refine ⟨t, h1, ?_⟩
  have : preprocess [⟨"a", .dict [.str "x", .str "y"]⟩, ⟨"b", .scaled 2 4⟩]
    (some (.list [[.str "y", .num 6], [.str "x", .num (-2)]])) none none = .ok [[.num 1, .num 0], [.num 1, .num (-1)]] := by
    decide +kernel
  rw [this] at h2
  injection h2 with h2
  exact h2.symm

/-- **C92** What comes back from rows is right: every row has a cell for every variable, and every number stands for its cell,
which is a value of the domain.  Missing values become NaN in a column without scaling, and the mean in a scaled one. -/
theorem C92_rows {vars : List Var} (he : ∀ var ∈ vars, EncOK var.enc) {rows : List (List Cell)} {t : List (List Entry)}
    (h : preprocess vars (some (.list rows)) none none = .ok t) :
    t.length = vars.length ∧ (∀ c ∈ t, c.length = rows.length) ∧
      ∀ (r v : ℕ) (row : List Cell) (var : Var), rows[r]? = some row → vars[v]? = some var →
        ∃ x, row[v]? = some x ∧
          ((∃ q, cellAt t r v = some (.num q) ∧ InDomain var.enc x ∧ Denotes var.enc q x) ∨
            x = .nan ∧ (var.enc = .ident ∧ cellAt t r v = some .nan ∨
              (∃ m s, var.enc = .scaled m s) ∧ cellAt t r v = some (.num 0))) := by
  cases rows with
  | nil => simp [preprocess, rowsOf, columnsOf, bind, Except.bind] at h
  | cons r0 rs =>
    simp only [preprocess, rowsOf, columnsOf, bind, Except.bind] at h
    cases hp : (List.range vars.length).mapM (pick (r0 :: rs)) with
    | error e => simp [hp] at h
    | ok cols =>
      simp only [hp] at h
      obtain ⟨hc1, hc2⟩ := mapM_get hp
      rw [List.length_range] at hc1
      cases cols with
      | nil => simp at h
      | cons c0 cs =>
        have hcl : ∀ (v : ℕ) (col : List Cell), (c0 :: cs)[v]? = some col → col.length = rs.length + 1 ∧
            ∀ (r : ℕ) (row : List Cell), (r0 :: rs)[r]? = some row → ∃ x, col[r]? = some x ∧ row[v]? = some x := by
          intro v col hcol
          have hv : v < vars.length := by
            rw [← hc1]; exact (List.getElem?_eq_some_iff.1 hcol).1
          obtain ⟨col', h1, h2⟩ := hc2 v v (by rw [List.getElem?_range hv])
          rw [hcol] at h1
          obtain rfl := Option.some.inj h1
          obtain ⟨h3, h4⟩ := mapM_get h2
          refine ⟨h3, fun r row hr => ?_⟩
          obtain ⟨x, h5, h6⟩ := h4 r row hr
          cases hx : row[v]? with
          | none => rw [hx] at h6; cases h6
          | some y => rw [hx] at h6; cases h6; exact ⟨x, h5, rfl⟩
        have hc0 : c0.length = rs.length + 1 := (hcl 0 c0 rfl).1
        replace h : fromColumns vars c0.length (c0 :: cs) = .ok t := h
        rw [hc0] at h
        unfold fromColumns at h
        cases hz : (vars.zip (c0 :: cs)).mapM (column (rs.length + 1)) with
        | error e => simp [hz, bind, Except.bind] at h
        | ok t' =>
          simp only [hz, bind, Except.bind] at h
          rw [hc1, Nat.sub_self, List.replicate_zero, List.append_nil] at h
          cases h
          obtain ⟨ht1, ht2⟩ := mapM_get hz
          have hlt : t.length = vars.length := by rw [ht1, List.length_zip, hc1, Nat.min_self]
          have hfull : ∀ (v : ℕ) (var : Var) (col : List Cell), vars[v]? = some var → (c0 :: cs)[v]? = some col →
              ∃ l, t[v]? = some l ∧ col.mapM (encode var.enc) = .ok l ∧ l.length = rs.length + 1 := by
            intro v var col h1 h2
            obtain ⟨l, h3, h4⟩ := ht2 v _ (zip_get h1 h2)
            unfold column at h4
            cases hm : col.mapM (encode var.enc) with
            | error e => simp [hm, bind, Except.bind] at h4
            | ok l' =>
              simp only [hm, bind, Except.bind] at h4
              have hl' : l'.length = rs.length + 1 := by rw [(mapM_get hm).1, (hcl v col h2).1]
              unfold writeCol at h4
              rw [if_pos hl'] at h4
              cases h4
              exact ⟨l, h3, rfl, hl'⟩
          refine ⟨hlt, ?_, ?_⟩
          · intro c hc
            obtain ⟨v, hv⟩ := List.getElem?_of_mem hc
            have hv' : v < vars.length := by rw [← hlt]; exact (List.getElem?_eq_some_iff.1 hv).1
            have hv'' : v < (c0 :: cs).length := by rw [hc1]; exact hv'
            obtain ⟨l, h3, -, h4⟩ := hfull v _ _ (List.getElem?_eq_getElem hv') (List.getElem?_eq_getElem hv'')
            rw [hv] at h3
            cases h3
            exact h4
          · intro r v row var hr hvar
            have hv'' : v < (c0 :: cs).length := by rw [hc1]; exact (List.getElem?_eq_some_iff.1 hvar).1
            obtain ⟨col, hcol⟩ : ∃ col, (c0 :: cs)[v]? = some col := ⟨_, List.getElem?_eq_getElem hv''⟩
            obtain ⟨x, h1, h2⟩ := (hcl v col hcol).2 r row hr
            obtain ⟨l, h3, h4, -⟩ := hfull v var col hvar hcol
            obtain ⟨y, h5, h6⟩ := (mapM_get h4).2 r x h1
            have hat : cellAt t r v = some y := by unfold cellAt; rw [h3]; exact h5
            rw [hat]
            refine ⟨x, h2, ?_⟩
            rcases encode_sound (he _ (List.mem_of_getElem? hvar)) h6 with ⟨q, rfl, h7⟩ | ⟨h7, h8⟩
            · exact .inl ⟨q, rfl, h7⟩
            · right
              refine ⟨h7, ?_⟩
              rcases h8 with ⟨h8, rfl⟩ | ⟨h8, rfl⟩
              · exact .inl ⟨h8, rfl⟩
              · exact .inr ⟨h8, rfl⟩

/-- A row with a missing number. -/
example : preprocess [⟨"a", .dict [.str "x", .str "y"]⟩, ⟨"b", .ident⟩] (some (.list [[.str "y", .num 6], [.str "x", .nan]])) none none
    = .ok [[.num 1, .num 0], [.num 6, .nan]] := by decide +kernel

/-- **C92** What comes back from a data frame is right: its columns are the variables, in this order, missing values are NaN,
and every other cell is a value of the domain that its number stands for. -/
theorem C92_frame {vars : List Var} (he : ∀ var ∈ vars, EncOK var.enc) {names : List String} {cols : List (List Cell)}
    {t : List (List Entry)} (h : preprocess vars (some (.frame names cols)) none none = .ok t) :
    names = vars.map (·.name) ∧
      ∀ (r v : ℕ) (x : Cell) (var : Var), cellAt cols r v = some x → vars[v]? = some var →
        x = .nan ∧ cellAt t r v = some .nan ∨
        x ≠ .nan ∧ ∃ q, cellAt t r v = some (.num q) ∧ InDomain var.enc x ∧ Denotes var.enc q x := by
  have hf : fromFrame vars names cols = .ok t := by
    simpa [preprocess, rowsOf, columnsOf, bind, Except.bind] using h
  unfold fromFrame at hf
  by_cases hn : names = vars.map (·.name)
  · rw [if_neg (by simpa using hn)] at hf
    refine ⟨hn, ?_⟩
    intro r v x var hx hvar
    obtain ⟨col, hcol, hr⟩ := Option.bind_eq_some_iff.1 hx
    obtain ⟨l, h1, h2⟩ := (mapM_get hf).2 v _ (zip_get hvar hcol)
    obtain ⟨y, h3, h4⟩ := (mapM_get h2).2 r x hr
    have hat : cellAt t r v = some y := by unfold cellAt; rw [h1]; exact h3
    rw [hat]
    rcases encodeFrame_sound (he _ (List.mem_of_getElem? hvar)) h4 with ⟨h5, rfl⟩ | ⟨h5, q, rfl, h6⟩
    · exact .inl ⟨h5, rfl⟩
    · exact .inr ⟨h5, q, rfl, h6⟩
  · rw [if_pos hn] at hf
    cases hf

example : preprocess [⟨"a", .dict [.str "x", .str "y"]⟩, ⟨"b", .ident⟩] (some (.frame ["a", "b"] [[.str "y", .nan], [.num 6, .nan]])) none none
    = .ok [[.num 1, .nan], [.num 6, .nan]] := by decide +kernel

/-- **C92** Calls that are rejected: nothing or several things passed, no rows, other columns than the variables or in another
order, and values that do not belong to a domain. -/
theorem C92_errors (vars : List Var) (data rows columns : Option Src) :
    (([data, rows, columns].filter Option.isSome).length ≠ 1 → preprocess vars data rows columns = .error .valueError) ∧
    preprocess vars (some (.list [])) none none = .error .valueError ∧
    preprocess vars none (some (.list [])) none = .error .valueError ∧
    preprocess vars none none (some (.list [])) = .error .valueError ∧
    (∀ names cols, names ≠ vars.map (·.name) → preprocess vars (some (.frame names cols)) none none = .error .valueError) ∧
    (∀ names cols (r v : ℕ) (x : Cell) (var : Var) t, (∀ var ∈ vars, EncOK var.enc) → cellAt cols r v = some x →
      vars[v]? = some var → x ≠ .nan → ¬ InDomain var.enc x → preprocess vars (some (.frame names cols)) none none ≠ .ok t) ∧
    (∀ l (r v : ℕ) (row : List Cell) (x : Cell) (var : Var) t, (∀ var ∈ vars, EncOK var.enc) → l[r]? = some row →
      row[v]? = some x → vars[v]? = some var → x ≠ .nan → ¬ InDomain var.enc x →
      preprocess vars (some (.list l)) none none ≠ .ok t) := by
  refine ⟨fun h => ?_, ?_, ?_, ?_, ?_, ?_, ?_⟩
  · unfold preprocess
    rw [if_pos h]
  · simp [preprocess, rowsOf, columnsOf, bind, Except.bind]
  · simp [preprocess, rowsOf, columnsOf, bind, Except.bind]
  · simp [preprocess, rowsOf, columnsOf, bind, Except.bind]
  · intro names cols hn
    simp [preprocess, rowsOf, columnsOf, bind, Except.bind, fromFrame, hn]
  · intro names cols r v x var t he hx hvar hn hd h
    rcases (C92_frame he h).2 r v x var hx hvar with ⟨h1, -⟩ | ⟨-, q, -, h1, -⟩
    · exact hn h1
    · exact hd h1
  · intro l r v row x var t he hr hx hvar hn hd h
    obtain ⟨y, h1, h2⟩ := (C92_rows he h).2.2 r v row var hr hvar
    rw [hx] at h1
    obtain rfl := Option.some.inj h1
    rcases h2 with ⟨q, -, h2, -⟩ | ⟨h2, -⟩
    · exact hd h2
    · exact hn h2

/-- The kind of a variable in the learner: the discrete ones with the number of their labels. -/
def KindOf (k : Learn.Kind) (e : Enc) : Prop :=
  match e with
  | .dict labels => k = .integer labels.length ∨ k = .symbolic labels.length
  | _ => k = .numeric

/-- **C92** A table that represents the data is what the learner needs: every row has a valid index in each discrete
column. -/
theorem C92_learnable {vars : List Var} {n : ℕ} {cols : List (List Cell)} {t : List (List Entry)} (ht : Represents vars n cols t)
    (hs : ∀ r v, r < n → v < vars.length → (cellAt cols r v).isSome) (c : Learn.Cfg)
    (hc : List.Forall₂ (fun k (var : Var) => KindOf k var.enc) c.vars vars) (data : Learn.Data)
    (hd : ∀ r v q, cellAt t r v = some (.num q) → data r v = q) : Learn.DataOK c data n := by
  intro r hr v m hm
  obtain ⟨k, hk, hk'⟩ : ∃ k, c.vars[v]? = some k ∧ (k = .integer m ∨ k = .symbolic m) := by
    rcases hm with h | h
    · exact ⟨_, h, .inl rfl⟩
    · exact ⟨_, h, .inr rfl⟩
  obtain ⟨hv, rfl⟩ := List.getElem?_eq_some_iff.1 hk
  have hv' : v < vars.length := by rw [← hc.length_eq]; exact hv
  have hkind := (List.forall₂_iff_get.1 hc).2 v hv hv'
  simp only [List.get_eq_getElem] at hkind
  obtain ⟨x, hx⟩ := Option.isSome_iff_exists.1 (hs r v hr hv')
  obtain ⟨q, h1, h2⟩ := ht.cells r v _ x (List.getElem?_eq_getElem hv') hx
  rw [hd r v q h1]
  cases he : vars[v].enc with
  | dict labels =>
    rw [he] at hkind h2
    obtain ⟨i, rfl, h3⟩ := h2
    refine ⟨i, ?_, rfl⟩
    have hlt := (List.getElem?_eq_some_iff.1 h3).1
    have hm' : m = labels.length := by
      unfold KindOf at hkind
      simp only at hkind
      rcases hk' with e | e <;> rcases hkind with e' | e' <;> rw [e] at e' <;> cases e' <;> rfl
    rw [hm']
    exact hlt
  | ident =>
    rw [he] at hkind
    unfold KindOf at hkind
    simp only at hkind
    rcases hk' with e | e <;> rw [e] at hkind <;> cases hkind
  | scaled a b =>
    rw [he] at hkind
    unfold KindOf at hkind
    simp only at hkind
    rcases hk' with e | e <;> rw [e] at hkind <;> cases hkind

/-- Variables, cells, and the table of C92's first example. -/
example : ∃ (vars : List Var) (cols : List (List Cell)) (t : List (List Entry)) (c : Learn.Cfg) (data : Learn.Data),
    Represents vars 2 cols t ∧ (∀ r v, r < 2 → v < vars.length → (cellAt cols r v).isSome) ∧
      List.Forall₂ (fun k (var : Var) => KindOf k var.enc) c.vars vars ∧
      (∀ r v q, cellAt t r v = some (.num q) → data r v = q) ∧ c.vars = [.symbolic 2, .numeric] := by
  refine ⟨[⟨"a", .dict [.str "x", .str "y"]⟩, ⟨"b", .ident⟩], [[.str "y", .str "x"], [.num 6, .int 7]],
    [[.num 1, .num 0], [.num 6, .num 7]], ⟨[.symbolic 2, .numeric], [], [], fun _ => [], fun _ => false, 1, 0, none⟩,
    fun r v => if v = 0 then (if r = 0 then 1 else 0) else (if r = 0 then 6 else 7), ⟨rfl, by simp, ?_⟩, ?_, ?_, ?_, rfl⟩
  · intro r v var x hv hx
    rcases v with _ | _ | v <;> rcases r with _ | _ | r <;> simp [cellAt] at hv hx ⊢ <;> subst hv <;> subst hx <;>
      simp [Denotes, Cell.number]
    · exact ⟨1, by norm_num, rfl⟩
    · exact ⟨0, by norm_num, rfl⟩
  · intro r v hr hv
    simp at hv
    rcases v with _ | _ | v <;> rcases r with _ | _ | r <;> simp [cellAt] <;> omega
  · exact .cons (.inr rfl) (.cons rfl .nil)
  · intro r v q h
    rcases v with _ | _ | v <;> rcases r with _ | _ | r <;> simp [cellAt] at h ⊢ <;> exact h

/-- **C92** violated for missing numbers: the same data give NaN from a data frame but the mean from rows, if the numbers
are scaled. -/
theorem C92_violated_missing :
    preprocess [⟨"a", .scaled 2 4⟩] (some (.frame ["a"] [[.num 6, .nan]])) none none = .ok [[.num 1, .nan]] ∧
    preprocess [⟨"a", .scaled 2 4⟩] (some (.list [[.num 6], [.nan]])) none none = .ok [[.num 1, .num 0]] ∧
    Denotes (.scaled 2 4) 0 (.num 2) := by
  refine ⟨by decide +kernel, by decide +kernel, ?_⟩
  show some (2 : ℚ) = some (0 * 4 + 2)
  norm_num

/-- **C92** violated for columns: superfluous ones are not rejected and give columns of uninitialised memory, missing ones are not noticed, and
a column with a single value is taken to be constant. -/
theorem C92_violated_columns :
    preprocess [⟨"a", .ident⟩] none none (some (.list [[.num 1, .num 2], [.num 3, .num 4]]))
      = .ok [[.num 1, .num 2], [.unset, .unset]] ∧
    preprocess [⟨"a", .ident⟩, ⟨"b", .ident⟩] none none (some (.list [[.num 1, .num 2]])) = .ok [[.num 1, .num 2]] ∧
    preprocess [⟨"a", .ident⟩, ⟨"b", .ident⟩] none none (some (.list [[.num 1, .num 2], [.num 7]]))
      = .ok [[.num 1, .num 2], [.num 7, .num 7]] := by
  refine ⟨?_, ?_, ?_⟩ <;> decide +kernel

/-- **C92** violated for rows: those with more cells than there are variables are cut off, without an error. -/
theorem C92_violated_long_rows :
    preprocess [⟨"a", .ident⟩] (some (.list [[.num 1, .num 2], [.num 3, .num 4]])) none none = .ok [[.num 1, .num 3]] := by
  decide +kernel

end Verif.Tab
