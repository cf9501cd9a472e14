import Verif.Model.Property

/-!
# Vocabulary for the text format of the properties (C34)
-/

namespace Quad.Spec

/-- blanks followed by nothing or by a comment -/
def SkippedLine (line : List Char) : Prop :=
  ∃ blanks rest, line = blanks ++ rest ∧ (∀ c ∈ blanks, c ∈ [' ', '\t', Char.ofNat 11, Char.ofNat 12]) ∧
    (rest = [] ∨ rest.head? = some '#' ∨ rest.head? = some ';') ∧ '\n' ∉ rest

/-- a text of lines of these two kinds: any characters, or a property as it is written -/
def linesText (lines : List (List Char ⊕ Nat × Nat)) : List Char :=
  lines.flatMap (fun
    | .inl l => l ++ ['\n']
    | .inr it => Properties.write ⟨[it]⟩)

end Quad.Spec
