import Verif.Model.Vec
import Verif.Model.Poly
import Verif.Model.Matrix
import Verif.Model.Misc
import Verif.Model.Property

/-!
# Model of the functions `dump`: src/vec_vector.h, vec_poly.h, vec_matrix.h, vec_buffers.h, fec_context.h

Each returns the characters it writes to `std::cout`, as their codes.  `T` is an unsigned type of `b` bits.
Simplified: `std::cout` has the flags it starts with and takes all characters; lengths, `int` in C++, are naturals.
-/

namespace Quad.Dump

/-- `std::cout << "..."` -/
def lit (s : String) : List Nat := s.toList.map Char.toNat

/-- `std::cout << i` for a number of a built-in type other than a character -/
def num (i : Nat) : List Nat := (Properties.decStr i).map Char.toNat

/-- `std::cout << x` for an `x` of type `T`: `uint8_t` is a type of characters, and `__uint128_t` has an operator of its
own (misc.cpp:35-54), whose buffer holds `mem` -/
def put (b : Nat) (mem : Nat → Nat) (x : Nat) : Res (List Nat) :=
  if b = 8 then ok [x] else if b = 128 then Misc.print_u128 mem x else ok (num x)

/-- `Vector::dump` (vec_vector.h:472-478), not overridden in `Slice`, `View` and `ZeroExtended` -/
def vector (b : Nat) (mem : Nat → Nat) (H : Heap) (o : Vec.Obj) : Res (List Nat) := do
  let s ← forN o.base.n (lit "( ") (fun i s => do
    let x ← o.get H i
    let t ← put b mem x
    ok (s ++ (t ++ lit " ")))
  ok (s ++ lit ")\n")

/-- `Poly::dump` (vec_poly.h:243-253) -/
def poly (b : Nat) (mem : Nat → Nat) (P : Poly) : Res (List Nat) := do
  let s ← forN (P.degree + 1).toNat [] (fun i s => do
    let s := if i ≠ 0 then s ++ lit " + " else s
    let x ← rd P.buf i
    let t ← put b mem x
    ok (s ++ (t ++ (lit " x^" ++ num i))))
  ok (s ++ lit "\n")

/-- `Matrix::dump_row` (vec_matrix.h:432-441) after its assertion, and the body of the outer loop of `Matrix::dump`
(vec_matrix.h:450-453); `s` is what was written before -/
def rowBody (b : Nat) (mem : Nat → Nat) (M : Mat) (row : Nat) (s : List Nat) : Res (List Nat) := do
  let s ← forN M.n_cols s (fun j s => do
    let x ← M.get row j
    let t ← put b mem x
    ok (s ++ (lit " " ++ t)))
  ok (s ++ lit "\n")

/-- `Matrix::dump_row` (vec_matrix.h:432-441) -/
def dump_row (b : Nat) (mem : Nat → Nat) (M : Mat) (row : Nat) : Res (List Nat) := do
  cassert (decide (row < M.n_rows))
  rowBody b mem M row []

/-- `Matrix::dump` (vec_matrix.h:443-455) -/
def matrix (b : Nat) (mem : Nat → Nat) (M : Mat) : Res (List Nat) :=
  forN M.n_rows (lit "--\n") (rowBody b mem M)

/-- `Buffers::dump` (vec_buffers.h:480-493); `size - 1` is of type `size_t` -/
def buffers (b : Nat) (mem : Nat → Nat) (H : Heap) (B : Bufs) : Res (List Nat) := do
  let s ← forN B.n [] (fun i s => do
    let s := s ++ (lit "\n\t" ++ (num i ++ lit ": "))
    let s ← forN ((B.size + (2 ^ 64 - 1)) % 2 ^ 64) s (fun j s => do
      let p ← B.get i
      let x ← Heap.rdEl H p j
      let t ← put b mem x
      ok (s ++ (t ++ lit "-")))
    if B.size > 0 then do
      let p ← B.get i
      let x ← Heap.rdEl H p (B.size - 1)
      let t ← put b mem x
      ok (s ++ t)
    else ok s)
  ok (s ++ lit "\n)\n")

/-- `DecodeContext::dump` (fec_context.h:220-229): `inv_A_i` twice -/
def context (b : Nat) (mem : Nat → Nat) (H : Heap) (A : Poly) (inv_A_i : Vec.Obj) : Res (List Nat) := do
  let a ← poly b mem A
  let v ← vector b mem H inv_A_i
  let w ← vector b mem H inv_A_i
  ok (lit "Dump context:\n" ++ (lit "A:" ++ (a ++ (lit "inv_A_i init:" ++ (v ++ (lit "inv_A_i:" ++ w))))))

end Quad.Dump
