import Verif.Intervals.Model

/-! # Model of the hash of a union of intervals -/

namespace Verif.Iv

/-- The argument of `hash` in `RealSet.__hash__` (`intervals.pyx` 199-203): the first two calls of `sorted` have no
effect, as the third starts again from `self.intervals`; Python sorts stably.  The hash of a tuple is made of the hashes
of its elements, here of the tuples `CS.hashKey`. -/
def RS.hashKey (l : List CS) : List (FP × FP × Br × Br) :=
  ((l.insertionSort (fun a b => a.left.code ≤ b.left.code)).insertionSort (fun a b => a.lower ≤ b.lower)).map CS.hashKey

/-- `__bool__` (`intervals.pyx` 196-197). -/
def RS.toBool (l : List CS) : Bool := !RS.isempty l

end Verif.Iv
