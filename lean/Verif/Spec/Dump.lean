import Mathlib.Data.List.Basic

/-!
# What a dump of a vector, polynomial, matrix or set of buffers looks like

Characters are their codes; `chars` gives those of a string.
-/

namespace Quad.Spec

/-- the codes of the characters of a string -/
def chars (s : String) : List Nat := s.toList.map Char.toNat

/-- the decimal digits of a number -/
def decimal (n : Nat) : List Nat := if n < 10 then [48 + n] else decimal (n / 10) ++ [48 + n % 10]
termination_by n
decreasing_by omega

/-- how an element of `b` bits is shown: bytes as characters, wider ones as numbers -/
def elemText (b x : Nat) : List Nat := if b = 8 then [x] else decimal x

/-- `( 1 2 3 )` -/
def vecText (b : Nat) (xs : List Nat) : List Nat :=
  chars "( " ++ ((xs.map (fun x => elemText b x ++ chars " ")).flatten ++ chars ")\n")

/-- the terms from exponent `i` on -/
def termsText (b : Nat) : Nat → List Nat → List Nat
  | _, [] => chars "\n"
  | i, x :: xs => (if i = 0 then [] else chars " + ") ++ (elemText b x ++ (chars " x^" ++ (decimal i ++ termsText b (i + 1) xs)))

/-- `7 x^0 + 0 x^1 + 5 x^2` -/
def polyText (b : Nat) (xs : List Nat) : List Nat := termsText b 0 xs

/-- ` 1 2 3` -/
def rowText (b : Nat) (xs : List Nat) : List Nat := (xs.map (fun x => chars " " ++ elemText b x)).flatten ++ chars "\n"

/-- a line of dashes and the rows -/
def matText (b : Nat) (rows : List (List Nat)) : List Nat := chars "--\n" ++ (rows.map (rowText b)).flatten

/-- `1-2-3` -/
def joinText (b : Nat) : List Nat → List Nat
  | [] => []
  | [x] => elemText b x
  | x :: y :: xs => elemText b x ++ (chars "-" ++ joinText b (y :: xs))

/-- the buffers from number `i` on, each on a line with its number -/
def bufsTextFrom (b : Nat) : Nat → List (List Nat) → List Nat
  | _, [] => chars "\n)\n"
  | i, r :: rs => chars "\n\t" ++ (decimal i ++ (chars ": " ++ (joinText b r ++ bufsTextFrom b (i + 1) rs)))

/-- a set of buffers -/
def bufsText (b : Nat) (rows : List (List Nat)) : List Nat := bufsTextFrom b 0 rows

end Quad.Spec
