import Mathlib.Algebra.Order.Field.Rat

/-! # Vocabulary for the figures of the benchmark (C76) -/

namespace Quad.Spec

/-- mean of some numbers -/
def mean (l : List Nat) : Rat := (l.map (fun (x : Nat) => (x : Rat))).sum / l.length

/-- variance of some numbers: mean of the squared distances from the mean -/
def variance (l : List Nat) : Rat := (l.map (fun (x : Nat) => ((x : Rat) - mean l) ^ 2)).sum / l.length

/-- the times of the first `n` operations -/
def times (t : Nat → Nat) (n : Nat) : List Nat := (List.range n).map t

end Quad.Spec
