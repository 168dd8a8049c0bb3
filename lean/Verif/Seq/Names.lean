import Verif.Seq.Model

/-!
# Model of the names in the expanded tree of a `SequentialJPT`

`_shift_variable_to_timestep` (sequential_trees.py 128-138) and its use (sequential_trees.py 32-50).  Names are lists of
characters.
-/

namespace Verif.Seq

/-- `"%s+%s" % (name, timestep)` (sequential_trees.py 137). -/
def shiftName (n : List Char) (t : ℕ) : List Char := n ++ '+' :: Nat.toDigits 10 t

/-- The names of `expanded_variables` (sequential_trees.py 32, 46-50), where `targets` are the `target_indices`. -/
def expandedNames (names : List (List Char)) (targets : List ℕ) (w : ℕ) : List (List Char) :=
  names ++ (List.range' 1 (w - 1)).flatMap (fun t => targets.map (fun v => shiftName (names.getD v []) t))

end Verif.Seq
