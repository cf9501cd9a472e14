import Verif.Model.Ring

/-!
# Model of src/big_int.h

Words of `__uint128_t` are natural numbers below `2^128`.
-/

namespace Quad

/-- conversion to `__uint128_t` -/
def toWord128 (x : Int) : Nat := (x % 2 ^ 128).toNat

/-- `UInt256` (big_int.h:36-41) -/
structure UInt256 where
  lo : Nat := 0
  hi : Nat := 0
  deriving DecidableEq, Repr

namespace UInt256

/-- constructor from a word (big_int.h:41) -/
def ofWord (x : Nat) : UInt256 := { lo := x, hi := 0 }

/-- `operator*` (big_int.h:43-46) -/
def mul (a : UInt256) (x : Nat) : UInt256 := ofWord (wrap 128 (a.lo * x))

/-- `operator%` (big_int.h:48-51) -/
def mod (a : UInt256) (x : Nat) : Res UInt256 := if x = 0 then ub else .ok (ofWord (a.lo % x))

/-- `operator __uint128_t` (big_int.h:53-56) -/
def toWord (a : UInt256) : Nat := a.lo

end UInt256

/-- `Int256` (big_int.h:59-64) -/
structure Int256 where
  lo : Nat := 0
  hi : Nat := 0
  deriving DecidableEq, Repr

namespace Int256

/-- constructor from a word (big_int.h:64), after the conversion to one -/
def ofInt (x : Int) : Int256 := { lo := toWord128 x, hi := 0 }

/-- `operator<` (big_int.h:66-69, 71-74); an `int` is converted -/
def lt (a : Int256) (x : Int) : Bool := decide (a.lo < toWord128 x)

/-- `operator!=` (big_int.h:76-79, 81-84); an `int` is converted -/
def ne (a : Int256) (x : Int) : Bool := decide (a.lo ≠ toWord128 x)

/-- `operator+` (big_int.h:86-89) -/
def add (a : Int256) (x : Nat) : Int256 := ofInt ((a.lo : Int) + x)

/-- `operator-` (big_int.h:91-94) -/
def sub (a x : Int256) : Int256 := ofInt ((a.lo : Int) - x.lo)

/-- `operator*` (big_int.h:96-99) -/
def mul (a x : Int256) : Int256 := ofInt ((a.lo : Int) * x.lo)

/-- `operator/(Int256)` (big_int.h:101-104) -/
def div (a x : Int256) : Res Int256 := if x.lo = 0 then ub else .ok (ofInt ((a.lo / x.lo : Nat) : Int))

/-- `operator/(int)` (big_int.h:106-109); the `int` is converted -/
def divInt (a : Int256) (x : Int) : Res Int256 := if toWord128 x = 0 then ub else .ok (ofInt ((a.lo / toWord128 x : Nat) : Int))

/-- `operator __uint128_t` (big_int.h:111-114) -/
def toWord (a : Int256) : Nat := a.lo

end Int256
end Quad
