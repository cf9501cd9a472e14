import Mathlib.Data.List.Basic

/-!
# What printed numbers and dumps look like

Characters are their codes.
-/

namespace Quad.Spec

/-- the characters are decimal digits without superfluous zeros, at least one -/
def Decimal (s : List Nat) : Prop :=
  (∀ c ∈ s, 48 ≤ c ∧ c ≤ 57) ∧ s ≠ [] ∧ (s.head? = some 48 → s = [48])

/-- the number decimal digits stand for -/
def decVal (s : List Nat) : Nat := s.foldl (fun v c => 10 * v + (c - 48)) 0

/-- a hexadecimal digit -/
def hexDigit (upper : Bool) (x : Nat) : Nat :=
  ((if upper then "0123456789ABCDEF" else "0123456789abcdef").toList.map Char.toNat).getD x 0

/-- how a byte is shown: two digits, the high one first, and a blank -/
def hexByte (upper : Bool) (b : Nat) : List Nat := [hexDigit upper (b / 16), hexDigit upper (b % 16), 32]

/-- how a byte is shown as a character: itself if it can be printed, else a dot -/
def shown (b : Nat) : Nat := if 32 ≤ b ∧ b < 127 then b else 46

/-- a line of a dump, bytes being shown by `fmt`: the bytes and, on demand, blanks for the
bytes missing in the line and the characters -/
def dumpLine (fmt : Nat → List Nat) (text : Bool) (bs : List Nat) : List Nat :=
  (bs.map fmt).flatten
    ++ (if text then List.replicate (3 * (32 - bs.length)) 32 ++ [32, 124, 32] ++ bs.map shown else [])
    ++ [10]

/-- a dump: lines of 32 bytes each, the last of what remains -/
def dump (fmt : Nat → List Nat) (text : Bool) (bs : List Nat) : List Nat :=
  if bs = [] then [] else dumpLine fmt text (bs.take 32) ++ dump fmt text (bs.drop 32)
termination_by bs.length
decreasing_by
  rename_i h
  have : 0 < bs.length := List.length_pos_of_ne_nil h
  rw [List.length_drop]; omega

end Quad.Spec
