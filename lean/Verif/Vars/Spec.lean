import Verif.Vars.Model
import Mathlib.Logic.Function.Basic

/-!
# What a variable map is

The variable declared under each name, the value held under each name, and the order in which the
names were inserted.
-/

namespace Verif.Vars

/-- The abstract content of a variable map. -/
structure View (P A : Type) where
  decl : String → Option (Var P)
  val : String → Option A
  order : List String

variable {P A : Type}

/-- The content of a map object. -/
def VMap.view (m : VMap P A) : View P A :=
  ⟨fun n => m.vars.lookup n, fun n => m.map.lookup n, m.map.map Prod.fst⟩

/-- The name a key refers to. -/
def Key.target : Key P → Option String
  | .name n => some n
  | .var v => some v.name
  | .other => none

namespace View

/-- A new name goes to the end, a known one keeps its place. -/
def touch (o : List String) (n : String) : List String := if n ∈ o then o else o ++ [n]

/-- Setting the value of a variable: by object, or by the name of a declared variable. -/
def set (w : View P A) (k : Key P) (a : A) : Except Err (View P A) :=
  match k with
  | .name n =>
    if w.decl n = none then .error .valueError
    else .ok ⟨w.decl, Function.update w.val n (some a), touch w.order n⟩
  | .var v => .ok ⟨if w.decl v.name = none then Function.update w.decl v.name (some v) else w.decl,
      Function.update w.val v.name (some a), touch w.order v.name⟩
  | .other => .error .valueError

/-- Deleting a variable: its value and its declaration go, `KeyError` if it has no value. -/
def del (w : View P A) (k : Key P) : Except Err (View P A) :=
  match k.target with
  | none => .error .keyError
  | some n =>
    if w.val n = none then .error .keyError
    else .ok ⟨Function.update w.decl n none, Function.update w.val n none, w.order.filter (· ≠ n)⟩

/-- Overlaying another map's values and declarations. -/
def update (w u : View P A) : View P A :=
  ⟨fun n => (u.decl n).or (w.decl n), fun n => (u.val n).or (w.val n),
    w.order ++ u.order.filter (· ∉ w.order)⟩

/-- Adding another map's items. -/
def iadd (w u : View P A) : View P A :=
  ⟨fun n => (w.decl n).or (if (u.val n).isSome then u.decl n else none), fun n => (u.val n).or (w.val n),
    w.order ++ u.order.filter (· ∉ w.order)⟩

/-- Removing another map's names. -/
def isub (w u : View P A) : View P A :=
  ⟨fun n => if (w.val n).isSome ∧ (u.val n).isSome then none else w.decl n,
    fun n => if (u.val n).isSome then none else w.val n, w.order.filter fun n => u.val n = none⟩

end View

/-- One operation on a map. -/
inductive Op (P A : Type)
  | set (k : Key P) (a : A)
  | del (k : Key P)
  | update (o : VMap P A)
  | iadd (o : VMap P A)
  | isub (o : VMap P A)

/-- The operation on the map object. -/
def VMap.step (m : VMap P A) : Op P A → Except Err (VMap P A)
  | .set k a => m.set k a
  | .del k => m.del k
  | .update o => .ok (m.update o)
  | .iadd o => m.iadd o
  | .isub o => m.isub o

/-- The operation on the content. -/
def View.step (w : View P A) : Op P A → Except Err (View P A)
  | .set k a => w.set k a
  | .del k => w.del k
  | .update o => .ok (w.update o.view)
  | .iadd o => .ok (w.iadd o.view)
  | .isub o => .ok (w.isub o.view)

/-- A history of operations; an operation that raises leaves the object as it is.  The result
lists the exceptions. -/
def VMap.run (m : VMap P A) : List (Op P A) → VMap P A × List (Option Err)
  | [] => (m, [])
  | o :: os => match m.step o with
    | .error e => let r := m.run os; (r.1, some e :: r.2)
    | .ok m' => let r := m'.run os; (r.1, none :: r.2)

/-- The same on the content. -/
def View.run (w : View P A) : List (Op P A) → View P A × List (Option Err)
  | [] => (w, [])
  | o :: os => match w.step o with
    | .error e => let r := w.run os; (r.1, some e :: r.2)
    | .ok w' => let r := w'.run os; (r.1, none :: r.2)

/-- A map object as it comes out of the constructor and the operations. -/
structure VMap.WF (m : VMap P A) : Prop where
  vars : (m.vars.map Prod.fst).Nodup
  map : (m.map.map Prod.fst).Nodup
  names : ∀ p ∈ m.vars, p.2.name = p.1
  declared : ∀ n ∈ m.map.map Prod.fst, n ∈ m.vars.map Prod.fst

end Verif.Vars
