import Verif.Model.BinExt
import Mathlib.Algebra.Polynomial.Div
import Mathlib.Algebra.Field.ZMod

/-!
# What the binary extension fields are
-/

namespace Quad.Spec
open Quad Finset Polynomial

/-- the polynomial over the field of two elements whose coefficients are the `n` bits of a word -/
noncomputable def binWord (n a : Nat) : (ZMod 2)[X] := ∑ i ∈ range n, if a.testBit i then X ^ i else 0

/-- the polynomial that defines the field of `2^n` elements -/
noncomputable def binModulus (n : Nat) : (ZMod 2)[X] :=
  if n = 1 then X + 1
  else if n = 2 then X ^ 2 + X + 1
  else if n = 3 then X ^ 3 + X + 1
  else if n = 4 then X ^ 4 + X + 1
  else if n = 8 then X ^ 8 + X ^ 4 + X ^ 3 + X ^ 2 + 1
  else if n = 16 then X ^ 16 + X ^ 12 + X ^ 3 + X + 1
  else if n = 32 then X ^ 32 + X ^ 7 + X ^ 3 + X ^ 2 + 1
  else if n = 64 then X ^ 64 + X ^ 4 + X ^ 3 + X + 1
  else X ^ 128 + X ^ 7 + X ^ 2 + X + 1

/-- The fields the library can build: the exponents of gf_bin_ext.h:111-137, in a word type
of whole bytes that has room for the elements and, for the table-based fields, one more bit. -/
structure BinSupported (b n : Nat) : Prop where
  size : n ∈ [1, 2, 3, 4, 8, 16, 32, 64, 128]
  bytes : 8 ∣ b
  room : n ≤ b
  spare : n ≤ 16 → n < b

/-- `O` is a field object built by `create<BinExtension<T>>(n)` for a word type of `b` bits,
whatever the memory held before -/
structure IsBinExt (O : BinExt.Obj) (b n : Nat) : Prop where
  ok : BinSupported b n
  built : ∃ junk junk3, (BinExt.mk' b n junk junk3 >>= BinExt.init) = .ok O

end Quad.Spec
