import Verif.Spec.Fnt
import Verif.Spec.Packets
import Verif.Spec.FecGf2n

/-!
# Vocabulary for linear combinations of data (C81)
-/

namespace Quad.Spec

/-- word `t` of each of the `k` streams of `sum` is `x` times that of `data` plus `y` times that of `data'`, modulo `p` -/
def CombinesAt (p x y w k t : Nat) (data data' sum : Array (List Nat)) : Prop :=
  ∀ i, i < k → word w (gt sum i) t ≡ x * word w (gt data i) t + y * word w (gt data' i) t [MOD p]

/-- the value at location `t` of a fragment of the code over GF(p): `256^w` more than the word stored if the location is marked -/
def unmarked (w : Nat) (s : List Nat) (P : Properties) (t : Nat) : Nat :=
  if t ∈ P.props.map Prod.fst then word w s t + 256 ^ w else word w s t

end Quad.Spec
