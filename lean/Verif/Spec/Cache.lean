import Verif.Model.Cache

/-!
# What a table of powers is
-/

namespace Quad.Spec

/-- entry `i` is `w^i` modulo `p`, for all `i < n` -/
def IsTable (p n w : Nat) (W : Array Nat) : Prop := ∀ i, i < n → gt W i = w ^ i % p

/-- the same but for the last entry, of which the last decimal digits may be missing -/
def IsTableCut (p n w : Nat) (W : Array Nat) : Prop :=
  (∀ i, i + 1 < n → gt W i = w ^ i % p) ∧ (0 < n → ∃ j, gt W (n - 1) = w ^ (n - 1) % p / 10 ^ j)

end Quad.Spec
