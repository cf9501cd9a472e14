import Mathlib.Data.List.Basic

/-!
# How options are written on a command line (C56, C72)
-/

namespace Quad.Spec

/-- letters of options of the file program without an argument -/
def flagLetters : List Char := ['c', 'r', 'u', 'v', 't']

/-- letters of options of the file program with an argument -/
def argLetters : List Char := ['n', 'm', 'p', 'e', 'w']

/-- letters of options of the benchmark; all have an argument -/
def benchLetters : List Char := ['t', 'e', 'w', 'k', 'm', 'c', 'n', 's', 'x', 'g', 'p', 'f']

/-- The arguments stand for the options, of which `flags` have no argument and `args` have one: letters of options without an argument can be put together after one dash, an
option with an argument can follow them, its argument is what remains or the next argument.  `strict`: arguments that are
no options end the options, else they are passed over. -/
inductive OnLine (flags args : List Char) (strict : Bool) : List (List Char) → List (Char × List Char) → Prop where
  | nil : OnLine flags args strict [] []
  | stop (rest : List (List Char)) : OnLine flags args strict (['-', '-'] :: rest) []
  | together {argv opts} (fl : List Char) : fl ≠ [] → (∀ c ∈ fl, c ∈ flags) → OnLine flags args strict argv opts →
      OnLine flags args strict (('-' :: fl) :: argv) (fl.map (fun c => (c, [])) ++ opts)
  | joined {argv opts} (fl : List Char) (c : Char) (x : List Char) : (∀ c ∈ fl, c ∈ flags) → c ∈ args → x ≠ [] →
      OnLine flags args strict argv opts →
      OnLine flags args strict (('-' :: (fl ++ c :: x)) :: argv) (fl.map (fun c => (c, [])) ++ (c, x) :: opts)
  | apart {argv opts} (fl : List Char) (c : Char) (x : List Char) : (∀ c ∈ fl, c ∈ flags) → c ∈ args →
      OnLine flags args strict argv opts →
      OnLine flags args strict (('-' :: (fl ++ [c])) :: x :: argv) (fl.map (fun c => (c, [])) ++ (c, x) :: opts)
  | other {argv opts} (x : List Char) : x.head? ≠ some '-' ∨ x = ['-'] → strict = false → OnLine flags args strict argv opts →
      OnLine flags args strict (x :: argv) opts
  | otherStrict (x : List Char) (rest : List (List Char)) : x.head? ≠ some '-' ∨ x = ['-'] → strict = true →
      OnLine flags args strict (x :: rest) []

end Quad.Spec
