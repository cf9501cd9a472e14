import Verif.Model.Driver
import Verif.Model.Simd
import Verif.Model.FecGf2n
import Verif.Model.FecFft
import Verif.Model.FecFftAdd
import Verif.Model.FecNf4Buf

/-!
# Model of test/ec_driver.cpp: the options and `main`

The arguments are the options as `getopt` returns them (Model/Getopt.lean): a letter, and its argument if it has one.  A letter that is not in the
option string stands for what `getopt` reports as an error.  Messages and statistics are not modelled.  Negative numbers of fragments are
converted as the program does, but the constructors are modelled on natural numbers: what they do with counts near 2^32 is not modelled.
-/

namespace Quad.Driver

/-- how the program ends: `exit(n)` or a return from `main`, or the library or `std::stoi` throws, or an assertion fails -/
inductive Exit where
  | status (n : Nat)
  | raised (e : Err)
  deriving DecidableEq

/-- `ec_type` (ec_driver.cpp:482-491) but `EC_TYPE_UNDEF` -/
inductive Ec where
  | gf2n | gf2nFft | gf2nFftAdd | gfpFft | fnt | fntSys | nf4
  deriving DecidableEq

/-- the variables of `main` (ec_driver.cpp:507-516) and the globals it sets (ec_driver.cpp:38-42); `-1` for numbers not given -/
structure Opts where
  eflag : Option Ec := none
  mflag : RsGf2n.MatType := .vandermonde
  word_size : Nat := 0
  n_data : Int := -1
  n_parities : Int := -1
  pfx : Option (List Char) := none
  cflag : Bool := false
  rflag : Bool := false
  uflag : Bool := false
  tflag : Bool := false

/-- `std::stoi` on 32-bit `int`: white space, a sign, digits; it throws if there are none or the value is out of range -/
def stoi (s : List Char) : Res Int :=
  let s := s.dropWhile Properties.isSpace
  let neg := (Properties.splitSign s).1
  let ds := (Properties.splitSign s).2.takeWhile Properties.isDigit
  if ds.isEmpty then .error (.throws .logicError)
  else
    let v : Int := if neg then - (Properties.decVal ds : Int) else Properties.decVal ds
    if v < -2 ^ 31 ∨ 2 ^ 31 ≤ v then .error (.throws .logicError) else .ok v

/-- conversion of an `int` to `unsigned` -/
def toUnsigned (v : Int) : Nat := (v % 2 ^ 32).toNat

/-- conversion of an `unsigned` to `int` -/
def toInt (v : Nat) : Int := if v < 2 ^ 31 then v else (v : Int) - 2 ^ 32

/-- the names of the codes (ec_driver.cpp:520-540) -/
def codeName (s : List Char) : Option (Ec × Option RsGf2n.MatType) :=
  if s = "rs-gf2n-v".toList then some (.gf2n, some .vandermonde)
  else if s = "rs-gf2n-c".toList then some (.gf2n, some .cauchy)
  else if s = "rs-gf2n-fft".toList then some (.gf2nFft, none)
  else if s = "rs-gf2n-fft-add".toList then some (.gf2nFftAdd, none)
  else if s = "rs-gfp-fft".toList then some (.gfpFft, none)
  else if s = "rs-nf4".toList then some (.nf4, none)
  else if s = "rs-fnt".toList then some (.fnt, none)
  else if s = "rs-fnt-sys".toList then some (.fntSys, none)
  else none

/-- one turn of the loop over the options (ec_driver.cpp:517-572); `Exit` if the program ends there -/
def option (o : Opts) (c : Char) (arg : List Char) : Except Exit Opts :=
  let num (f : Int → Opts) : Except Exit Opts :=
    match stoi arg with
    | .ok v => .ok (f v)
    | .error e => .error (.raised e)
  if c = 'e' then
    match codeName arg with
    | some (e, t) => .ok { o with eflag := some e, mflag := t.getD o.mflag }
    | none => .error (.status 1)
  else if c = 'w' then num (fun v => { o with word_size := toUnsigned v })
  else if c = 'v' then .ok o
  else if c = 'u' then .ok { o with uflag := true }
  else if c = 'c' then .ok { o with cflag := true }
  else if c = 'r' then .ok { o with rflag := true }
  else if c = 'n' then num (fun v => { o with n_data := v })
  else if c = 'm' then num (fun v => { o with n_parities := v })
  else if c = 'p' then .ok { o with pfx := some arg }
  else if c = 't' then .ok { o with tflag := true }
  else .error (.status 1)

/-- the loop over the options (ec_driver.cpp:517-572) -/
def options : List (Char × List Char) → Opts → Except Exit Opts
  | [], o => .ok o
  | a :: l, o =>
    match option o a.1 a.2 with
    | .ok o => options l o
    | .error x => .error x

/-- `check` (ec_driver.cpp:493-503); shifting by a negative number is undefined -/
def check (n word_size : Int) (e : Ec) : Res Bool :=
  if 4 ≤ word_size then .ok true
  else if word_size < 0 then ub
  else if e = .fnt ∨ e = .fntSys then .ok (decide (n ≤ 2 ^ (8 * word_size.toNat) + 1))
  else .ok (decide (n ≤ 2 ^ (8 * word_size.toNat)))

/-- What a process does not choose: the vector registers of its build (`none`, 16 or 32 bytes), what their upper halves hold, and the contents of
uninitialised memory when the code object is built and in each call of its functions. -/
structure Env where
  reg : Option Nat
  hi : Nat → Nat
  mem : Nat → Nat
  junk : Nat → Nat → Nat
  junk3 : Nat → Nat → Nat → Nat
  heap : Heap
  memEnc : Nat → Nat → Nat
  memDec : Nat → Nat → Nat
  junkEnc : Nat → Nat → Nat → Nat
  junkDec : Nat → Nat → Nat → Nat

/-- a code object with its state -/
abbrev Object := (F : Coder) × F.σ

/-- an object used word by word -/
def Env.words {Γ : Type} (env : Env) (E : Fec Γ) : Object := ⟨Coder.horizontal E env.memEnc env.memDec, (0 : Nat)⟩

/-- `run_fec_rs_gf2n<T>` for `T` of `b` bits: the object (ec_driver.cpp:327-336) -/
def newGf2n (env : Env) (t : RsGf2n.MatType) (b w k m : Nat) : Res Object :=
  (RsGf2n.mk' b w k m t env.mem env.junk env.junk3).map env.words

/-- `run_fec_rs_gf2n_fft<T>`: the object (ec_driver.cpp:357-358) -/
def newGf2nFft (env : Env) (b w k m : Nat) : Res Object :=
  (RsGf2nFft.mkBase b w k m env.mem env.junk env.junk3).map (fun B => env.words (RsGf2nFft.fec B))

/-- `run_fec_rs_gf2n_fft_add<T>`: the object (ec_driver.cpp:383-384) -/
def newGf2nFftAdd (env : Env) (b w k m : Nat) : Res Object :=
  (RsGf2nFftAdd.mkCode b w k m env.mem env.junk env.junk3).map (fun c => env.words (RsGf2nFftAdd.fec c))

/-- `run_fec_rs_gfp_fft<T>`: the assertion and the object (ec_driver.cpp:409-412) -/
def newGfpFft (env : Env) (b db w k m : Nat) : Res Object :=
  (do cassert (decide (w < b / 8)); RsGfpFft.mkBase b db w k m env.mem : Res (FecBase × Nat)).map
    (fun c => env.words (RsGfpFft.fec b c))

/-- `run_fec_rs_fnt<T>`: the object, with packets of 1024 words (ec_driver.cpp:438-441) -/
def newFnt (env : Env) (sys : Bool) (b db w k m : Nat) : Res Object :=
  (RsFntObj.mk' (.of env.reg b) b db sys w k m 1024 env.mem env.junk env.heap).map
    (fun x => ⟨Coder.vertical (x.2.fecV b) env.memDec env.junkEnc env.junkDec, (x.2.enc_context, x.1, (0 : Nat))⟩)

/-- `run_fec_rs_nf4<T>`: the object (ec_driver.cpp:462-464); it is used word by word -/
def newNf4 (env : Env) (b w k m : Nat) : Res Object :=
  (RsNf4.mkCode b (RsNf4Obj.nf4Simd b env.reg env.hi) w k m 1024 env.mem).map (fun c => env.words (RsNf4.fec c))

/-- what `main` does with the options: nothing, a refusal, or a run with an object -/
inductive Choice where
  | nothing
  | refuse
  | use (x : Res Object)

/-- the branches of `main` (ec_driver.cpp:591-679) -/
def choose (env : Env) (e : Ec) (t : RsGf2n.MatType) (w k m : Nat) : Choice :=
  match e with
  | .fnt =>
    if w = 1 then .use (newFnt env false 16 32 w k m)
    else if w = 2 then .use (newFnt env false 32 64 w k m)
    else .refuse
  | .fntSys =>
    if w = 1 then .use (newFnt env true 16 32 w k m)
    else if w = 2 then .use (newFnt env true 32 64 w k m)
    else .refuse
  | .nf4 =>
    if w ≤ 2 then .use (newNf4 env 32 w k m)
    else if w ≤ 4 then .use (newNf4 env 64 w k m)
    else if w ≤ 8 then .use (newNf4 env 128 w k m)
    else .nothing
  | .gf2n =>
    if w ≤ 4 then .use (newGf2n env t 32 w k m)
    else if w ≤ 8 then .use (newGf2n env t 64 w k m)
    else if w ≤ 16 then .use (newGf2n env t 128 w k m)
    else .nothing
  | .gfpFft =>
    if w ≤ 7 then .use (newGfpFft env 64 128 w k m)
    else if w ≤ 15 then .use (newGfpFft env 128 128 w k m)
    else .nothing
  | .gf2nFft =>
    if w ≤ 4 then .use (newGf2nFft env 32 w k m)
    else if w ≤ 8 then .use (newGf2nFft env 64 w k m)
    else if w ≤ 16 then .use (newGf2nFft env 128 w k m)
    else .nothing
  | .gf2nFftAdd =>
    if w ≤ 4 then .use (newGf2nFftAdd env 32 w k m)
    else if w ≤ 8 then .use (newGf2nFftAdd env 64 w k m)
    else if w ≤ 16 then .use (newGf2nFftAdd env 128 w k m)
    else .nothing

/-- `run_fec_*` once the object is built (ec_driver.cpp:338-352) -/
def runObject (o : Opts) (pfx : List Char) (k : Nat) (x : Object) (fs : Fs) : Fs × Exit :=
  if o.tflag then (fs, .status 1)
  else
    match run x.1 (names pfx k x.1.n_outputs) o.rflag x.2 fs with
    | (fs, .done _) => (fs, .status 0)
    | (fs, .exit) => (fs, .status 1)
    | (fs, .raised e) => (fs, .raised e)

/-- `main` after the options are read (ec_driver.cpp:574-683).  `n_data + n_parities` is computed in `int`. -/
def dispatch (env : Env) (o : Opts) (fs : Fs) : Fs × Exit :=
  match o.eflag with
  | none => (fs, .status 1)
  | some e =>
    if !(o.uflag || o.cflag || o.rflag) then (fs, .status 1)
    else if o.n_data + o.n_parities < -2 ^ 31 ∨ 2 ^ 31 ≤ o.n_data + o.n_parities then (fs, .raised .ub)
    else
      match check (o.n_data + o.n_parities) (toInt o.word_size) e with
      | .error x => (fs, .raised x)
      | .ok false => (fs, .status 1)
      | .ok true =>
        if o.n_data = -1 ∨ o.n_parities = -1 then (fs, .status 1)
        else
          match o.pfx with
          | none => (fs, .status 1)
          | some pfx =>
            match choose env e o.mflag o.word_size (toUnsigned o.n_data) (toUnsigned o.n_parities) with
            | .nothing => (fs, .status 0)
            | .refuse => (fs, .status 1)
            | .use (.error x) => (fs, .raised x)
            | .use (.ok x) => runObject o pfx (toUnsigned o.n_data) x fs

/-- `main` (ec_driver.cpp:505-683) -/
def main (env : Env) (args : List (Char × List Char)) (fs : Fs) : Fs × Exit :=
  match options args {} with
  | .error x => (fs, x)
  | .ok o => dispatch env o fs

end Quad.Driver
