import Verif.Table.Model

/-!
# Specification of data tables
-/

namespace Verif.Tab

/-- A number in a column stands for a cell. -/
def Denotes : Enc → ℚ → Cell → Prop
  | .dict labels, q, x => ∃ i : ℕ, q = i ∧ labels[i]? = some x
  | .ident, q, x => x.number = some q
  | .scaled mean scale, q, x => x.number = some (q * scale + mean)

/-- A cell is a value of the domain. -/
def InDomain : Enc → Cell → Prop
  | .dict labels, x => x ∈ labels
  | _, x => x.number.isSome

/-- The cell in row `r` and column `v` of a table given by its columns. -/
def cellAt {α : Type} (cols : List (List α)) (r v : ℕ) : Option α := cols[v]?.bind (·[r]?)

/-- The rows and columns of the same table, of `n` rows and `k` columns. -/
structure IsTranspose (n k : ℕ) (rows cols : List (List Cell)) : Prop where
  rows_length : rows.length = n
  cols_length : cols.length = k
  width : ∀ row ∈ rows, row.length = k
  height : ∀ col ∈ cols, col.length = n
  same : ∀ r v, cellAt rows v r = cellAt cols r v

/-- A table represents the cells: it has the same shape, and every number stands for the cell at its position. -/
structure Represents (vars : List Var) (n : ℕ) (cols : List (List Cell)) (t : List (List Entry)) : Prop where
  columns : t.length = vars.length
  rows : ∀ c ∈ t, c.length = n
  cells : ∀ (r v : ℕ) (var : Var) (x : Cell), vars[v]? = some var → cellAt cols r v = some x →
    ∃ q, cellAt t r v = some (.num q) ∧ Denotes var.enc q x

/-- Domains can tell their values apart: labels are distinct and scales are not 0. -/
def EncOK : Enc → Prop
  | .dict labels => labels.Nodup
  | .ident => True
  | .scaled _ scale => scale ≠ 0

end Verif.Tab
