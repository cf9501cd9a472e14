import Verif.Spec.Gf2n
import Verif.Model.Fft2n
import Verif.Lemmas.RingRoot

/-!
# What a discrete Fourier transform is
-/

namespace Quad.Spec
open Quad

/-- `F` is a field object with `q` elements that the library has built over words of `b` bits: a
prime field or a binary extension field -/
inductive FieldObj : GF → Nat → Nat → Prop
  | prime {O : RingModN.Obj} {p : Nat} : RingModN.IsPrimeField O p → FieldObj O.gf O.ring.b p
  | bin {O : BinExt.Obj} {b n : Nat} : IsBinExt O b n → FieldObj O.gf b (2 ^ n)

/-- `x_0 + x_1 w^i + x_2 w^(2 i) + ...`, computed with the operations of the field object -/
def dftAt (F : GF) (w : Nat) (x : Array Nat) (i : Nat) : Nat :=
  (List.range x.size).foldl (fun acc j => F.add acc (F.mul (F.exp w (i * j)) (gt x j))) 0

/-- the discrete Fourier transform of `x` for the root `w` -/
def dftVec (F : GF) (w : Nat) (x : Array Nat) : Array Nat := Array.ofFn (n := x.size) fun i => dftAt F w x i

/-- `w` has order exactly `n` -/
def HasOrder (F : GF) (w n : Nat) : Prop := F.exp w n = 1 ∧ ∀ j, 0 < j → j < n → F.exp w j ≠ 1

/-- a vector of `n` elements of the field of `q` elements -/
def IsVec (q n : Nat) (x : Array Nat) : Prop := x.size = n ∧ ∀ j, j < n → gt x j < q

/-- `n` packets of `pkt` elements -/
def IsPkts (q n pkt : Nat) (a : Array (Array Nat)) : Prop := a.size = n ∧ ∀ j, j < n → IsVec q pkt (gt a j)

/-- the elements at position `c` of every packet -/
def col (a : Array (Array Nat)) (c : Nat) : Array Nat := a.map fun b => gt b c

end Quad.Spec
