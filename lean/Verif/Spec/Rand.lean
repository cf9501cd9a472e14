import Verif.Model.Rand

/-!
# What a random element is
-/

namespace Quad.Spec

/-- `v` is a nonzero element of a ring or field of `q` elements, written 0, …, q - 1 -/
def NonZero (q v : Nat) : Prop := 1 ≤ v ∧ v < q

/-- a call to `rand` on a ring built with cardinal `card` in words of `b` bits may return `v` -/
def CanReturn (b card v : Nat) : Prop :=
  ∃ d0 d1, Draw b card d0 ∧ DrawLeading card d1 ∧ ringRand b card d0 d1 = v

/-- a call to `rand` on the packed field may return `v` -/
def CanReturnPacked (N : NF4) (v : Nat) : Prop := ∃ d : Nat → Nat, (∀ i, Draw 32 65537 (d i)) ∧ N.rand d = v

/-- a call to `unpacked_rand` on the packed field may return `v` -/
def CanReturnUnpacked (N : NF4) (v : Nat) : Prop := ∃ d : Nat → Nat, (∀ i, Draw 32 65537 (d i)) ∧ N.unpacked_rand d = v

end Quad.Spec
