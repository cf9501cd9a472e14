import Verif.Model.BigInt

/-! # Vocabulary for the 256-bit types (C74) -/

namespace Quad.Spec

/-- the number an unsigned 256-bit integer with these halves stands for -/
def uval (a : UInt256) : Nat := a.lo + 2 ^ 128 * a.hi

/-- the number a 256-bit two's complement integer with these halves stands for -/
def sval (a : Int256) : Int :=
  if a.hi < 2 ^ 127 then (a.lo : Int) + 2 ^ 128 * a.hi else (a.lo : Int) + 2 ^ 128 * a.hi - 2 ^ 256

/-- halves are words, and the high one is 0: what every constructor and operator gives -/
def UInt256.Plain (a : UInt256) : Prop := a.lo < 2 ^ 128 ∧ a.hi = 0

@[inherit_doc UInt256.Plain]
def Int256.Plain (a : Int256) : Prop := a.lo < 2 ^ 128 ∧ a.hi = 0

end Quad.Spec
