import Verif.Model.DriverMain
import Verif.Spec.Driver
import Verif.Spec.Nf4

/-!
# Vocabulary for the command line of the program that codes and repairs files (C56)

A command line is a list of options, each a letter with its argument (empty for an option without one).
-/

namespace Quad.Spec
open Quad.Driver

/-- Options of a command line, in any order and possibly repeated, that ask to code (`repair = false`) or repair the files with prefix
`pfx`, with the code of the given name, `k` data and `m` parity fragments and words of `w` bytes; numbers are in decimal. -/
structure Asks (args : List (Char × List Char)) (code : String) (w k m : Nat) (pfx : List Char) (repair : Bool) : Prop where
  letters : ∀ a ∈ args, a.1 ∈ ['e', 'w', 'n', 'm', 'p', 'c', 'u', 'r', 'v']
  e : ('e', code.toList) ∈ args ∧ ∀ x, ('e', x) ∈ args → x = code.toList
  w : ('w', Properties.decStr w) ∈ args ∧ ∀ x, ('w', x) ∈ args → x = Properties.decStr w
  n : ('n', Properties.decStr k) ∈ args ∧ ∀ x, ('n', x) ∈ args → x = Properties.decStr k
  m : ('m', Properties.decStr m) ∈ args ∧ ∀ x, ('m', x) ∈ args → x = Properties.decStr m
  p : ('p', pfx) ∈ args ∧ ∀ x, ('p', x) ∈ args → x = pfx
  mode : ∃ a ∈ args, a.1 ∈ ['c', 'u', 'r']
  r : repair = true ↔ ∃ a ∈ args, a.1 = 'r'

/-- the names of the codes -/
def codeNames : List String :=
  ["rs-gf2n-v", "rs-gf2n-c", "rs-gf2n-fft", "rs-gf2n-fft-add", "rs-gfp-fft", "rs-nf4", "rs-fnt", "rs-fnt-sys"]

/-- The command line is wrong: an unknown option, an unknown code, text that is not a number where a number is needed, a number too large for an `int`, a needed option is
missing, or there is nothing to do. -/
inductive Wrong (args : List (Char × List Char)) : Prop
  | letter {a} : a ∈ args → a.1 ∉ ['e', 'w', 'n', 'm', 'p', 'c', 'u', 'r', 'v', 't'] → Wrong args
  | code {x} : ('e', x) ∈ args → x ∉ codeNames.map String.toList → Wrong args
  | number {a} : a ∈ args → a.1 ∈ ['w', 'n', 'm'] → (∀ c ∈ a.2, Properties.isDigit c = false) → Wrong args
  | large {c v} : (c, Properties.decStr v) ∈ args → c ∈ ['w', 'n', 'm'] → 2 ^ 31 ≤ v → Wrong args
  | missing {c} : c ∈ ['e', 'n', 'm', 'p'] → (∀ a ∈ args, a.1 ≠ c) → Wrong args
  | mode : (∀ a ∈ args, a.1 ∉ ['c', 'u', 'r']) → Wrong args

/-- names of the codes on Fermat numbers -/
def isFnt (code : String) : Bool := code = "rs-fnt" ∨ code = "rs-fnt-sys"

/-- the largest word size the program has a word type for, by code; it checks those of `rs-fnt` and `rs-fnt-sys` -/
def largestWord (code : String) : Nat :=
  if isFnt code then 2 else if code = "rs-nf4" then 8 else if code = "rs-gfp-fft" then 15 else 16

/-- word sizes a code can be built with -/
def wordSizes (code : String) : List Nat :=
  if isFnt code then [1, 2] else if code = "rs-nf4" then [2, 3, 4, 5, 6, 7, 8] else if code = "rs-gfp-fft" then [1, 2, 4]
  else [1, 2, 4, 8, 16]

/-- number of coding files -/
def codingFiles (code : String) (k m : Nat) : Nat := if code = "rs-gf2n-v" ∨ code = "rs-gf2n-c" ∨ code = "rs-fnt-sys" then m else k + m

/-- a build: no vector registers, or registers of 16 bytes (SSE4.1) or 32 (AVX2) -/
def EnvOk (env : Env) : Prop := Nf4Reg env.reg

/-- What C56 asks of the program with the code of the given name: any run that is asked to code the data files makes the coding files
`frags` with `fprops` and touches no other file, and any run that is asked to repair makes the lost files again, as long as there are enough,
and touches no other.  The runs may be of different processes and builds.  `back` is what is made again of each data file. -/
structure ProgramKeeps (code : String) (w k m n : Nat) (sys : Bool) (data back frags : Array (List Nat)) (fprops : Array Properties) : Prop where
  fsize : frags.size = n
  psize : fprops.size = n
  create : ∀ env args pfx fs, EnvOk env → Asks args code w k m pfx false → DataFiles (names pfx k n) data fs →
    ∃ fs', main env args fs = (fs', .status 0) ∧ CodingFiles (names pfx k n) frags fprops fs' ∧
      ∀ x, ¬ IsCoding (names pfx k n) n x → fs' x = fs x
  repair : ∀ env args pfx fs0 fs, EnvOk env → Asks args code w k m pfx true → DataFiles (names pfx k n) data fs0 →
    CodingFiles (names pfx k n) frags fprops fs0 → Lost (names pfx k n) k n fs0 fs → Enough (names pfx k n) sys k n fs →
    ∃ fs', main env args fs = (fs', .status 0) ∧ CodingFiles (names pfx k n) frags fprops fs' ∧
      (∀ i, i < k → fs' ((names pfx k n).d i) = some (if fs ((names pfx k n).d i) = none then gt back i else gt data i)) ∧
      ∀ x, ¬ IsData (names pfx k n) k x → ¬ IsCoding (names pfx k n) n x → fs' x = fs x

end Quad.Spec
