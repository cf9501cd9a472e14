import Verif.Model.Ring

/-!
# The virtual interface `gf::Field<T>`

The transforms and codes are templates over `const gf::Field<T>&`: they only
use the virtual functions of gf_ring.h:78-140 and gf_base.h:62-66.
-/

namespace Quad

/-- The virtual functions of `gf::Field<T>` used by transforms and codes
(gf_ring.h:82-140, gf_base.h:59-66) -/
structure GF where
  /-- `card()` -/
  card : Nat
  /-- `card_minus_one()` -/
  cardM1 : Nat
  /-- `get_p()`: the characteristic -/
  p : Nat
  add : Nat → Nat → Nat
  sub : Nat → Nat → Nat
  mul : Nat → Nat → Nat
  neg : Nat → Nat
  inv : Nat → Res Nat
  div : Nat → Nat → Res Nat
  exp : Nat → Nat → Nat
  /-- `mul` and `exp` with the reads outside tables that words which are no elements lead to; fields without tables have none -/
  mulC : Nat → Nat → Res Nat := fun x y => .ok (mul x y)
  expC : Nat → Nat → Res Nat := fun x e => .ok (exp x e)
  /-- the value the virtual function `compute_omegas(W, n, w)` stores at index `i`: `exp(w, i)` (gf_ring.h:497),
  `exp(w, replicate(i))` in gf_nf4.h:473 -/
  omega : Nat → Nat → Nat
  /-- `get_nth_root(n)` -/
  nthRoot : Nat → Res Nat
  /-- `get_inv_n_mod_p(n)` -/
  invN : Nat → Res Nat
  /-- `get_unit()` -/
  unit : Nat
  /-- `replicate(a)` -/
  replicate : Nat → Nat
  /-- the member `isNF4` -/
  isNF4 : Bool
  /-- `get_code_len_high_compo(n)` -/
  codeLenHC : Nat → Res Nat

/-- the vtable of a `gf::Prime<T>` object (gf_prime.h:41-55: nothing is
overridden) -/
def RingModN.Obj.gf (O : RingModN.Obj) : GF where
  card := O.ring.card
  cardM1 := O.ring.cardM1
  p := O.ring.card
  add := O.ring.add
  sub := O.ring.sub
  mul := O.ring.mul
  neg := O.ring.neg
  inv := O.ring.inv
  div := O.ring.div
  exp := O.ring.exp
  omega := O.ring.exp
  nthRoot := O.get_nth_root
  invN := O.get_inv_n_mod_p
  unit := 1
  replicate := fun a => a
  isNF4 := false
  codeLenHC := O.get_code_len_high_compo

/-- `compute_omegas` (gf_ring.h:494-500, gf_nf4.h:469-475) through the vtable -/
def GF.computeOmegas (F : GF) (W : Array Nat) (n w : Nat) : Res (Array Nat) :=
  forN n W (fun i W => wr W i (F.omega w i))

/-- loop of `is_quadratic_residue` (gf_ring.h:480-483) on the virtual `exp`, `k` turns from `i` -/
def GF.qrLoop (F : GF) (q : Nat) : Nat → Nat → Bool
  | 0, _ => false
  | k + 1, i => if F.exp i 2 = q then true else GF.qrLoop F q k (i + 1)

/-- `is_quadratic_residue` (gf_ring.h:475-486), which is not virtual but calls `card` and `exp` of the field -/
def GF.is_quadratic_residue (F : GF) (q : Nat) : Bool := F.qrLoop q F.card 0

end Quad
