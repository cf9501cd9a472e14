import Mathlib.Algebra.BigOperators.Group.Finset.Basic
import Verif.Model.Stats

/-! # Vocabulary for the counters (C75) -/

namespace Quad.Spec

/-- cycles between two values of the cycle counter, which wraps at 2^64 -/
def elapsed (t : Timing) : Nat := (t.stop + (2 ^ 64 - t.start)) % 2 ^ 64

/-- the counters of a call of `n` operations, the `i`-th one on `d i` bytes of each fragment: numbers of 64 bits -/
def describes (n : Nat) (d : Nat → Nat) (clk : Nat → Timing) : Counters where
  ops := n % 2 ^ 64
  usec := (∑ i ∈ Finset.range n, (clk i).usec) % 2 ^ 64
  cycles := (∑ i ∈ Finset.range n, elapsed (clk i) / d i) % 2 ^ 64

/-- number of packets of `p` that hold `n` -/
def packets (n p : Nat) : Nat := (n + p - 1) / p

end Quad.Spec
