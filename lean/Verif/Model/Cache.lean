import Verif.Model.Ring
import Verif.Model.Property

/-!
# Model of `compute_omegas_cached` (src/gf_ring.h:511-536) down to the bytes of the file

Any number of processes call the function at the same time, for the same root and length; each step of a process is one
system call or less, and steps interleave in any order.  A process that is killed is one that never takes another
step.  `std::ofstream` hands the text over in pieces of any size, written at the position the process has reached;
`std::ifstream` takes the file in pieces of any size.  Nobody removes the file.  A write beyond the end of the file
(another process has truncated it) leaves zero bytes in between.

Simplified: `T` is a built-in unsigned type (there is no `operator>>` for `__uint128_t`); the files hold digits, line feeds and
zero bytes only, so signs need not be read; opening the file and writing succeed.
-/

namespace Quad.Cache

open Properties

/-- name of the file (gf_ring.h:514-516) -/
def filename (w : Nat) : List Char := ['W'] ++ decStr w ++ ['.', 'c', 'a', 'c', 'h', 'e']

/-- what the loop writes (gf_ring.h:521-524) for the table `vs` -/
def text (vs : List Nat) : List Char := vs.flatMap (fun v => decStr v ++ ['\n'])

/-- `file >> tmp` (gf_ring.h:530) for an unsigned type of `b` bits on what is left of the file: white space is skipped and
digits are taken; it fails if there is none or if the value does not fit -/
def extract (b : Nat) (s : List Char) : Option (Nat × List Char) :=
  let s := s.dropWhile isSpace
  let d := s.takeWhile isDigit
  if d.isEmpty then none
  else if decVal d < 2 ^ b then some (decVal d, s.dropWhile isDigit)
  else none

/-- the values the loop takes (gf_ring.h:530-533); at most `fuel` -/
def valuesF (b : Nat) : Nat → List Char → List Nat
  | 0, _ => []
  | fuel + 1, s =>
    match extract b s with
    | none => []
    | some (v, s) => v :: valuesF b fuel s

/-- the values the loop takes (gf_ring.h:530-533): each takes a byte at least -/
def values (b : Nat) (s : List Char) : List Nat := valuesF b s.length s

/-- the text of the table of the powers of `w` -/
def tableText (O : RingModN.Obj) (n w : Nat) : List Char := text ((List.range n).map (fun i => O.ring.exp w i))

/-- the table of a process that has read `s` (gf_ring.h:526-534) -/
def readTable (O : RingModN.Obj) (s : List Char) (W : Array Nat) (n : Nat) : Res (Array Nat) :=
  RingModN.Obj.readCache n (values O.ring.b s) 0 W

/-- writing `d` at position `off` of a file -/
def pwrite (f : List Char) (off : Nat) (d : List Char) : List Char :=
  f.take off ++ List.replicate (off - f.length) (Char.ofNat 0) ++ d ++ f.drop (off + d.length)

/-- where a process is -/
inductive Pc where
  /-- before `access` (gf_ring.h:518) -/
  | start
  /-- the file was absent; before `open` (gf_ring.h:520) -/
  | opening
  /-- in the loop (gf_ring.h:521-524), `off` bytes handed over -/
  | writing (off : Nat)
  /-- after the destructor of the `ofstream` (gf_ring.h:525) -/
  | closed
  /-- in the loop (gf_ring.h:530-533), with the bytes read so far -/
  | reading (got : List Char)
  /-- after the loop, with all bytes read -/
  | readDone (got : List Char)
  deriving DecidableEq

/-- the file and the processes -/
structure St where
  file : Option (List Char)
  pc : Nat → Pc

/-- the state with process `i` moved on -/
def St.at (s : St) (i : Nat) (f : Option (List Char)) (c : Pc) : St := ⟨f, fun j => if j = i then c else s.pc j⟩

/-- a step of process `i`, all processes writing the text `T` -/
inductive Step (T : List Char) : Nat → St → St → Prop where
  /-- `access` does not find the file (gf_ring.h:518) -/
  | absent (s : St) (i : Nat) : s.pc i = .start → s.file = none → Step T i s (s.at i none .opening)
  /-- `access` finds the file, which is opened (gf_ring.h:518, 528) -/
  | present (s : St) (i : Nat) (f : List Char) : s.pc i = .start → s.file = some f → Step T i s (s.at i (some f) (.reading []))
  /-- `open` for writing creates or truncates the file (gf_ring.h:520) -/
  | create (s : St) (i : Nat) : s.pc i = .opening → Step T i s (s.at i (some []) (.writing 0))
  /-- `k` more bytes of the text are written (gf_ring.h:523) -/
  | write (s : St) (i off k : Nat) (f : List Char) : s.pc i = .writing off → s.file = some f → 0 < k → off + k ≤ T.length →
      Step T i s (s.at i (some (pwrite f off ((T.drop off).take k))) (.writing (off + k)))
  /-- all is written (gf_ring.h:525) -/
  | close (s : St) (i : Nat) : s.pc i = .writing T.length → Step T i s (s.at i s.file .closed)
  /-- at most `k` more bytes are read (gf_ring.h:530) -/
  | read (s : St) (i k : Nat) (got f : List Char) : s.pc i = .reading got → s.file = some f →
      Step T i s (s.at i (some f) (.reading (got ++ (f.drop got.length).take k)))
  /-- end of file (gf_ring.h:530) -/
  | eof (s : St) (i : Nat) (got f : List Char) : s.pc i = .reading got → s.file = some f → f.length ≤ got.length →
      Step T i s (s.at i (some f) (.readDone got))

/-- what any schedule can lead to, from a directory without the file -/
inductive Reach (T : List Char) : St → Prop where
  | init : Reach T ⟨none, fun _ => .start⟩
  | step {i : Nat} {s s' : St} : Reach T s → Step T i s s' → Reach T s'

/-- what steps of the processes in `P` can lead to from `s` -/
inductive Steps (T : List Char) (P : Nat → Prop) (s : St) : St → Prop where
  | refl : Steps T P s s
  | step {i : Nat} {s' s'' : St} : Steps T P s s' → P i → Step T i s' s'' → Steps T P s s''

/-- what the call of a process has returned: the table it computed (gf_ring.h:522) or read, if it has returned -/
def result (O : RingModN.Obj) (W : Array Nat) (n w : Nat) : Pc → Option (Res (Array Nat))
  | .closed => some (O.compute_omegas W n w)
  | .readDone got => some (readTable O got W n)
  | _ => none

end Quad.Cache
