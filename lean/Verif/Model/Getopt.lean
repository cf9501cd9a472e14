import Verif.Model.DriverMain

/-!
# The arguments of test/ec_driver.cpp: how `getopt` takes them apart

`getopt` of the C library as its manual has it, with the option string `os` of a program: letters may share an argument, the
argument of an option follows in the same argument or is the next one, `--` ends the options.  Arguments that are no
options are passed over, or, if `POSIXLY_CORRECT` is set (`posix`), end the options.
-/

namespace Quad.Driver

/-- the option string (ec_driver.cpp:517) -/
def optstring : List Char := "n:m:p:cruve:w:t".toList

/-- what an option string says of a letter: `none` if it is not there, else if it has an argument -/
def hasArg (c : Char) : List Char → Option Bool
  | [] => none
  | a :: s => if a = c ∧ c ≠ ':' then some (s.head? = some ':') else hasArg c s

/-- the options in an argument after its `-`; with the last letter if its argument is the next one.  `?` for letters that
are no options. -/
def scan (os : List Char) : List Char → List (Char × List Char) × Option Char
  | [] => ([], none)
  | c :: cs =>
    match hasArg c os with
    | none => (('?', []) :: (scan os cs).1, (scan os cs).2)
    | some false => ((c, []) :: (scan os cs).1, (scan os cs).2)
    | some true => if cs = [] then ([], some c) else ([(c, cs)], none)

/-- what the calls of `getopt` (ec_driver.cpp:517, benchmark.cpp:745) return one after the other, `opt` and `optarg`, for the arguments after
the name of the program -/
def getopt (os : List Char) (posix : Bool) : List (List Char) → List (Char × List Char)
  | [] => []
  | a :: rest =>
    if a = ['-', '-'] then []
    else if a.head? = some '-' ∧ a ≠ ['-'] then
      match (scan os a.tail).2, rest with
      | none, rest => (scan os a.tail).1 ++ getopt os posix rest
      | some _, [] => (scan os a.tail).1 ++ [('?', [])]
      | some c, x :: rest => (scan os a.tail).1 ++ (c, x) :: getopt os posix rest
    else if posix then [] else getopt os posix rest

/-- `main` (ec_driver.cpp:505-683) with its arguments -/
def mainArgv (env : Env) (posix : Bool) (argv : List (List Char)) (fs : Fs) : Fs × Exit := main env (getopt optstring posix argv.tail) fs

end Quad.Driver
