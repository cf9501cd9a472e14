import Verif.Spec.Dft
import Mathlib.RingTheory.AdjoinRoot

/-!
# What the additive transform and the Taylor expansions are
-/

namespace Quad.Spec
open Quad Finset Polynomial

/-- the points of the linear span over the field of two elements: point `i` is the sum of the basis elements at the bits of `i` -/
def spanPoint (basis : Array Nat) (i : Nat) : Nat :=
  (List.range basis.size).foldl (fun acc j => if i.testBit j then acc ^^^ gt basis j else acc) 0

/-- linearly independent over the field of two elements: only the empty sum is zero -/
def Independent (basis : Array Nat) : Prop := ∀ i, 0 < i → i < 2 ^ basis.size → spanPoint basis i ≠ 0

/-- `x_0 + x_1 y + x_2 y^2 + ...`, computed with the operations of the field object -/
def evalAt (F : GF) (x : Array Nat) (y : Nat) : Nat :=
  (List.range x.size).foldl (fun acc j => F.add acc (F.mul (F.exp y j) (gt x j))) 0

/-- the values of the polynomial `x` at the points of a span, in the order of the points -/
def spanEvals (F : GF) (basis x : Array Nat) : Array Nat := Array.ofFn (n := 2 ^ basis.size) fun i => evalAt F x (spanPoint basis i)

/-- the basis `g, g^2, .., g^(m-1), 1` -/
def powerBasis (F : GF) (g m : Nat) : Array Nat := Array.ofFn (n := m) fun j => if j.val = m - 1 then 1 else F.exp g (j + 1)

/-- the element of `GF(2)[z] / P` that a word of `n` bits stands for -/
noncomputable def elemOf (P : (ZMod 2)[X]) (n a : Nat) : AdjoinRoot P := AdjoinRoot.mk P (binWord n a)

/-- the polynomial with coefficients `a_0, a_1, ...` -/
noncomputable def polyOfWords (P : (ZMod 2)[X]) (n : Nat) (a : Array Nat) : (AdjoinRoot P)[X] :=
  ∑ i ∈ range a.size, C (elemOf P n (gt a i)) * X ^ i

/-- the sum of `g_i(x) (x^t - x)^i` for `i < M`, where `g_i` has the coefficients `a_(t i), .., a_(t i + t - 1)` -/
noncomputable def taylorSum (P : (ZMod 2)[X]) (n t M : Nat) (a : Array Nat) : (AdjoinRoot P)[X] :=
  ∑ i ∈ range M, (∑ j ∈ range t, C (elemOf P n (gt a (t * i + j))) * X ^ j) * (X ^ t - X) ^ i

/-- the sum of `(u_i + v_i x) (x^2 - x)^i` for `i < M` -/
noncomputable def taylorSum2 (P : (ZMod 2)[X]) (n M : Nat) (u v : Array Nat) : (AdjoinRoot P)[X] :=
  ∑ i ∈ range M, (C (elemOf P n (gt u i)) + C (elemOf P n (gt v i)) * X) * (X ^ 2 - X) ^ i

end Quad.Spec
