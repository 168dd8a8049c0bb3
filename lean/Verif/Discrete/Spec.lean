import Verif.Discrete.Model

/-!
# Specification of finite probability distributions

Independent of the code: labels with weights, the mass of a set of labels.
-/

namespace Verif.Disc

/-- The mass that the weights `ps` of the labels `ls` give to the set `S`:
the sum of the weights of the labels in `S`. -/
def mass {L : Type} (ls : List L) (ps : List ℚ) (S : L → Prop) [DecidablePred S] : ℚ :=
  (List.zipWith (fun l p => if S l then p else 0) ls ps).sum

/-- A proper distribution object: distinct labels, one weight per label, non-negative weights that
sum to one. -/
def Dist.Proper {L : Type} (d : Dist L) : Prop :=
  d.dom.labels.Nodup ∧ d.params.length = d.dom.labels.length ∧ (∀ p ∈ d.params, 0 ≤ p) ∧
    d.params.sum = 1

/-- The probability of a set of labels under a distribution object. -/
def Dist.P {L : Type} (d : Dist L) (S : L → Prop) [DecidablePred S] : ℚ :=
  mass d.dom.labels d.params S

/-- The expected value of `f` under weights `ps` of the labels `ls`. -/
def expect {L : Type} (ls : List L) (ps : List ℚ) (f : L → ℚ) : ℚ :=
  (List.zipWith (fun l p => f l * p) ls ps).sum

end Verif.Disc
