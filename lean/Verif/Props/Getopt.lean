import Verif.Lemmas.Getopt
import Verif.Props.DriverMain

/-!
# C56 on command lines
-/

namespace Quad.Driver
open Spec

private theorem hasArg_flag {c : Char} (h : c ∈ flagLetters) : hasArg c optstring = some false := by
  simp only [flagLetters, List.mem_cons, List.not_mem_nil, or_false] at h
  rcases h with rfl | rfl | rfl | rfl | rfl <;> decide

private theorem hasArg_arg {c : Char} (h : c ∈ argLetters) : hasArg c optstring = some true := by
  simp only [argLetters, List.mem_cons, List.not_mem_nil, or_false] at h
  rcases h with rfl | rfl | rfl | rfl | rfl <;> decide

private theorem hasArg_none {c : Char} (h : c ∉ flagLetters) (h' : c ∉ argLetters) : hasArg c optstring = none := by
  simp only [flagLetters, argLetters, List.mem_cons, List.not_mem_nil, or_false, not_or] at h h'
  obtain ⟨h1, h2, h3, h4, h5⟩ := h
  obtain ⟨g1, g2, g3, g4, g5⟩ := h'
  have e : optstring = ['n', ':', 'm', ':', 'p', ':', 'c', 'r', 'u', 'v', 'e', ':', 'w', ':', 't'] := by decide
  rw [e]
  have n : ∀ a s, a ≠ c ∨ a = ':' → hasArg c (a :: s) = hasArg c s := fun a s q => hasArg_skip q s
  rw [n _ _ (.inl (Ne.symm g1)), n _ _ (.inr rfl), n _ _ (.inl (Ne.symm g2)), n _ _ (.inr rfl), n _ _ (.inl (Ne.symm g3)),
    n _ _ (.inr rfl), n _ _ (.inl (Ne.symm h1)), n _ _ (.inl (Ne.symm h2)), n _ _ (.inl (Ne.symm h3)), n _ _ (.inl (Ne.symm h4)),
    n _ _ (.inl (Ne.symm g4)), n _ _ (.inr rfl), n _ _ (.inl (Ne.symm g5)), n _ _ (.inr rfl), n _ _ (.inl (Ne.symm h5))]
  rfl

private theorem letters : Letters optstring flagLetters argLetters := ⟨fun _ => hasArg_flag, fun _ => hasArg_arg, fun _ => hasArg_none, by decide⟩

/-- C56: arguments that stand for options, in whichever way they are written, have the effect of these options -/
theorem C56_command_line {posix : Bool} {argv : List (List Char)} {args : List (Char × List Char)} (h : OnLine flagLetters argLetters posix argv args)
    (env : Env) (prog : List Char) (fs : Fs) : mainArgv env posix (prog :: argv) fs = main env args fs := by
  unfold mainArgv
  rw [List.tail_cons, getopt_written letters h]

/-- C56: arguments that do not stand for options are refused, and no file is touched -/
theorem C56_command_line_wrong {posix : Bool} {argv : List (List Char)} (h : ¬ ∃ args, OnLine flagLetters argLetters posix argv args) (env : Env)
    (prog : List Char) (fs : Fs) : ∃ x, mainArgv env posix (prog :: argv) fs = (fs, x) ∧ x ≠ .status 0 := by
  rcases written_or letters posix argv with w | q
  · exact absurd w h
  · exact Quad.Props.C56_wrong_command_lines (.letter (a := ('?', [])) q (by decide)) env fs

/-- an example: `ec_driver -cve rs-fnt -w2 -n 3 file -m2 -p x` -/
example : OnLine flagLetters argLetters false ["-cve".toList, "rs-fnt".toList, "-w2".toList, "-n".toList, "3".toList, "file".toList, "-m2".toList,
      "-p".toList, "x".toList]
    [('c', []), ('v', []), ('e', "rs-fnt".toList), ('w', ['2']), ('n', ['3']), ('m', ['2']), ('p', ['x'])] := by
  refine .apart ['c', 'v'] 'e' _ (by decide) (by decide) ?_
  refine .joined [] 'w' ['2'] (by decide) (by decide) (by decide) ?_
  refine .apart [] 'n' _ (by decide) (by decide) ?_
  refine .other _ (by decide) rfl ?_
  refine .joined [] 'm' ['2'] (by decide) (by decide) (by decide) ?_
  exact .apart [] 'p' _ (by decide) (by decide) .nil

/-- and one that is refused: the argument of `-p` is missing -/
example (env : Env) (fs : Fs) : ∃ x, mainArgv env true [[], "-c".toList, "-p".toList] fs = (fs, x) ∧ x ≠ .status 0 := by
  refine C56_command_line_wrong ?_ env [] fs
  rintro ⟨args, w⟩
  have := getopt_written letters w
  have : ('?', []) ∈ args := by rw [← this]; decide +kernel
  exact absurd (onLine_letters w _ this) (by decide)

end Quad.Driver
