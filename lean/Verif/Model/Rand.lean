import Verif.Model.Vec
import Verif.Model.NF4

/-!
# Model of `rand`: src/gf_ring.h, src/gf_nf4.h, src/vec_vector.h

A `std::uniform_int_distribution<uint64_t>(lo, hi)` may return any integer from `lo` to `hi`; it requires `lo ≤ hi`.
The functions take what the distributions return as arguments: `d0` for `distribution`, `d1` for
`distribution_leading`.  Simplified: nothing is said of how often a value is drawn, and the calls to `prng()` are left
out.  `T` is an unsigned type of `b` bits.
-/

namespace Quad

/-- `x - 1` of a `T`, converted to `uint64_t`: types narrower than `int` are promoted, the others wrap -/
def predU64 (b x : Nat) : Nat :=
  if x = 0 then (if b < 32 then 2 ^ 64 - 1 else (2 ^ b - 1) % 2 ^ 64) else (x - 1) % 2 ^ 64

/-- `rand_upper_bound(card)` (gf_ring.h:157-162) -/
def rand_upper_bound (b card : Nat) : Nat := if card > 2 ^ 64 - 1 then 2 ^ 64 - 1 else predU64 b card

/-- `rand_leading_bound(card)` (gf_ring.h:163-168); the 128-bit difference is converted to `uint64_t` -/
def rand_leading_bound (card : Nat) : Nat := if card > 2 ^ 64 - 1 then (card - (2 ^ 64 - 1) - 1) % 2 ^ 64 else 0

/-- what `distribution` may return (gf_ring.h:172) -/
def Draw (b card d0 : Nat) : Prop := 1 ≤ d0 ∧ d0 ≤ rand_upper_bound b card

/-- what `distribution_leading` may return (gf_ring.h:173) -/
def DrawLeading (card d1 : Nat) : Prop := d1 ≤ rand_leading_bound card

/-- `RingModN::rand` (gf_ring.h:538-542, and 544-552 for `__uint128_t`) -/
def ringRand (b card d0 d1 : Nat) : Nat :=
  if b = 128 then
    if card > 2 ^ 64 - 1 then d0 ||| wrap 128 (d1 <<< 64) else d0
  else wrap b d0

namespace NF4

/-- loop of `NF4::rand` (gf_nf4.h:338-340): `d i` is the draw of turn `i` -/
def randLoop (b : Nat) (d : Nat → Nat) : Nat → Nat → Nat → Nat
  | 0, _, c => c
  | k + 1, i, c => randLoop b d k (i + 1) (wrap b (wrap b (c <<< 16) <<< 16) ||| ringRand 32 65537 (d i) 0)

/-- `NF4::rand` (gf_nf4.h:334-342); `sub_field` is GF(65537) on 32 bits (gf_nf4.h:119) -/
def rand (N : NF4) (d : Nat → Nat) : Nat := randLoop N.b d (N.n - 1) 1 (wrap N.b (ringRand 32 65537 (d 0) 0))

/-- `NF4::unpacked_rand` (gf_nf4.h:344-349) -/
def unpacked_rand (N : NF4) (d : Nat → Nat) : Nat := (N.unpack (N.rand d)).1

end NF4

namespace Vec.Obj

/-- `Vector::rand` (vec_vector.h:463-469); `r i` is what `rn->rand()` returns in turn `i` -/
def rand (H : Heap) (o : Obj) (r : Nat → Nat) : Res Heap := forN o.base.n H (fun i H => o.set H i (r i))

end Vec.Obj

end Quad
