import Verif.Model.Matrix

/-!
# Vocabulary for the theorems on matrices (C29)
-/

namespace Quad.Spec

/-- an `R` by `C` matrix object whose entries are below `q` -/
structure MatOk (M : Mat) (R C q : Nat) : Prop where
  rows : M.n_rows = R
  cols : M.n_cols = C
  size : M.mem.size = R * C
  lt : ∀ i, i < R * C → gt M.mem i < q

/-- a vector object of `n` words below `q` -/
structure VecOk (v : Array Nat) (n q : Nat) : Prop where
  size : v.size = n
  lt : ∀ i, i < n → gt v i < q

/-- multiplying by `M` and then by `M'` gives back every vector, whatever the output vectors held -/
def Undoes (F : GF) (M' M : Mat) (n q : Nat) : Prop :=
  ∀ v out out', VecOk v n q → out.size = n → out'.size = n → ∃ u, M.mul F out v = .ok u ∧ M'.mul F out' u = .ok v

/-- some nonzero vector is mapped to zero -/
def Singular (F : GF) (M : Mat) (n q : Nat) : Prop :=
  ∃ v, VecOk v n q ∧ v ≠ Array.replicate n 0 ∧ ∀ out, out.size = n → M.mul F out v = .ok (Array.replicate n 0)

end Quad.Spec
