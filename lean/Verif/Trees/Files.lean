import Verif.Common
import Mathlib.Data.List.Basic

/-!
# Model of saving and loading trees

`JPT.save`, `JPT.load`, `JPT.__getstate__` and `JPT.__setstate__` (trees.py 915-928, 2332-2379).
-/

namespace Verif.Files

/-- The serialisers: `json.dump` writes bytes and may fail on the way, `json.load` reads everything; `pickle.dump` of the
compressed state, and `pickle.load`, which reads one object and leaves the rest. -/
structure Codec (J : Type) where
  json : J → List ℕ × Option Err
  unjson : List ℕ → Except Err J
  pick : J → List ℕ
  unpick : List ℕ → Except Err (J × List ℕ)

/-- The files by their names. -/
abbrev FS := String → Option (List ℕ)

/-- Replace the content of a file. -/
def FS.put (fs : FS) (path : String) (b : List ℕ) : FS := fun q => if q = path then some b else fs q

variable {M J : Type}

/-- Writing bytes.  If `stop` is given, the process dies (`runtimeError`) after so many bytes; otherwise writing ends with the
outcome `err` of the serialiser. -/
def written (stop : Option ℕ) (b : List ℕ) (err : Option Err) : List ℕ × Except Err Unit :=
  match stop with
  | some k => if k < b.length then (b.take k, .error .runtimeError) else finish
  | none => finish
where
  finish : List ℕ × Except Err Unit :=
    match err with
    | some e => (b, .error e)
    | none => (b, .ok ())

/-- `JPT.save` to a named file (trees.py 2343-2351): JSON data are made before the file is opened; `pickle` asks for the state
of the tree (`__getstate__`, trees.py 915-919), which is made from the same data, after the file has been opened.  Opening the
file empties it. -/
def saveFile (toJson : M → Except Err J) (c : Codec J) (stop : Option ℕ) (fs : FS) (path protocol : String) (m : M) :
    FS × Except Err Unit :=
  if protocol = "json" then
    match toJson m with
    | .error e => (fs, .error e)
    | .ok j =>
      let w := written stop (c.json j).1 (c.json j).2
      (fs.put path w.1, w.2)
  else if protocol = "pickle" then
    match toJson m with
    | .error e => (fs.put path [], .error e)
    | .ok j =>
      let w := written stop (c.pick j) none
      (fs.put path w.1, w.2)
  else (fs, .error .keyError)

/-- `JPT.load` from the bytes of a file or a stream (trees.py 2367-2379), together with the unread rest; `__setstate__`
(trees.py 921-927) makes the tree from the data. -/
def loadBytes (fromJson : J → Except Err M) (c : Codec J) (protocol : String) (b : List ℕ) : Except Err (M × List ℕ) :=
  if protocol = "json" then do
    let j ← c.unjson b
    let m ← fromJson j
    return (m, [])
  else if protocol = "pickle" then do
    let (j, r) ← c.unpick b
    let m ← fromJson j
    return (m, r)
  else .error .keyError

/-- `JPT.load` from a named file (trees.py 2367-2372); a missing file is an `OSError`, a `runtimeError` here. -/
def loadFile (fromJson : J → Except Err M) (c : Codec J) (fs : FS) (path protocol : String) : Except Err M :=
  if protocol ≠ "json" ∧ protocol ≠ "pickle" then .error .keyError else
  match fs path with
  | none => .error .runtimeError
  | some b => do
    let r ← loadBytes fromJson c protocol b
    return r.1

/-- `JPT.save` to a stream (trees.py 2352-2353) writes at its end. -/
def saveStream (toJson : M → Except Err J) (c : Codec J) (protocol : String) (s : List ℕ) (m : M) :
    List ℕ × Except Err Unit :=
  if protocol = "json" then
    match toJson m with
    | .error e => (s, .error e)
    | .ok j => (s ++ (c.json j).1, match (c.json j).2 with | some e => .error e | none => .ok ())
  else if protocol = "pickle" then
    match toJson m with
    | .error e => (s, .error e)
    | .ok j => (s ++ c.pick j, .ok ())
  else (s, .error .keyError)

/-- Saving several trees to a stream, as long as there is no error. -/
def saveAll (toJson : M → Except Err J) (c : Codec J) (protocol : String) : List ℕ → List M → List ℕ × Except Err Unit
  | s, [] => (s, .ok ())
  | s, m :: ms =>
    match saveStream toJson c protocol s m with
    | (s, .error e) => (s, .error e)
    | (s, .ok _) => saveAll toJson c protocol s ms

/-- Loading `n` trees from a stream. -/
def loadAll (fromJson : J → Except Err M) (c : Codec J) (protocol : String) : ℕ → List ℕ → Except Err (List M)
  | 0, _ => .ok []
  | n + 1, s => do
    let (m, r) ← loadBytes fromJson c protocol s
    let ms ← loadAll fromJson c protocol n r
    return m :: ms

end Verif.Files
