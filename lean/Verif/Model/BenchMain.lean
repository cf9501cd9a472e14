import Verif.Model.Bench
import Verif.Model.Getopt

/-!
# Model of benchmark/: parameters, checks, threads and `main`

The arguments are the options as `getopt` returns them (a letter, and its argument), as in Model/DriverMain.lean; `mainArgv` has them unread.  Negative numbers of
chunks are converted as the program does, but the constructors are modelled on natural numbers: what they do with counts near 2^32 is
not modelled, nor is memory running out.
-/

namespace Quad.Bench
open Quad.Driver (Object Coder stoi toUnsigned toInt)

/-- `ec_type` (benchmark.h:48-59) but `EC_TYPE_ALL` and `EC_TYPE_END` -/
inductive Ec where
  | fnt | fntSys | nf4 | gfpFft | gf2nFftAdd | gf2nV | gf2nC | gf2nFft
  deriving DecidableEq

/-- the codes in the order of `ec_type` (benchmark.h:48-59, benchmark.cpp:724) -/
def Ec.every : List Ec := [.fnt, .fntSys, .nf4, .gfpFft, .gf2nFftAdd, .gf2nV, .gf2nC, .gf2nFft]

/-- `scenario_type` (benchmark.h:133-137) -/
inductive Scenario where
  | encOnly | decOnly | encDec
  deriving DecidableEq

/-- `Params_t` (benchmark.h:160-177) without `extra_param`, which nothing reads, and `header`; `fec_type` is `none` for `EC_TYPE_ALL` -/
structure Params where
  fec_type : Option Ec := none
  word_size : Nat := 2
  k : Int := 3
  m : Int := 2
  operation_on_packet : Bool := true
  pkt_size : Nat := 1024
  chunk_size : Nat := 512
  samples_nb : Nat := 100
  sizeof_T : Int := -1
  sce_type : Scenario := .encDec
  threads_nb : Nat := 4
  compact_print : Int := 1
  deriving DecidableEq

/-- conversion of an `int` to `size_t` -/
def toSize (v : Int) : Nat := (v % 2 ^ 64).toNat

/-- `fec_type_map` (benchmark.h:121-131) -/
def codeName (s : List Char) : Option (Option Ec) :=
  if s = "all".toList then some none
  else if s = "rs-gf2n-v".toList then some (some .gf2nV)
  else if s = "rs-gf2n-c".toList then some (some .gf2nC)
  else if s = "rs-gf2n-fft".toList then some (some .gf2nFft)
  else if s = "rs-gf2n-fft-add".toList then some (some .gf2nFftAdd)
  else if s = "rs-gfp-fft".toList then some (some .gfpFft)
  else if s = "rs-fnt".toList then some (some .fnt)
  else if s = "rs-fnt-sys".toList then some (some .fntSys)
  else if s = "rs-nf4".toList then some (some .nf4)
  else none

/-- `sce_type_map` (benchmark.h:140-144) -/
def sceName (s : List Char) : Option Scenario :=
  if s = "enc_only".toList then some .encOnly
  else if s = "dec_only".toList then some .decOnly
  else if s = "enc_dec".toList then some .encDec
  else none

/-- one turn of the loop over the options (benchmark.cpp:745-796) -/
def option (p : Params) (c : Char) (arg : List Char) : Except Driver.Exit Params :=
  let num (f : Int → Params) : Except Driver.Exit Params :=
    match stoi arg with
    | .ok v => .ok (f v)
    | .error e => .error (.raised e)
  if c = 't' then num (fun v => { p with sizeof_T := v })
  else if c = 'e' then
    match codeName arg with
    | some e => .ok { p with fec_type := e }
    | none => .error (.status 1)
  else if c = 's' then
    match sceName arg with
    | some e => .ok { p with sce_type := e }
    | none => .error (.status 1)
  else if c = 'w' then num (fun v => { p with word_size := toSize v })
  else if c = 'k' then num (fun v => { p with k := v })
  else if c = 'm' then num (fun v => { p with m := v })
  else if c = 'c' then num (fun v => { p with chunk_size := toSize v })
  else if c = 'p' then num (fun v => { p with pkt_size := toSize v })
  else if c = 'n' then num (fun v => { p with samples_nb := toUnsigned v })
  else if c = 'x' then num (fun _ => p)
  else if c = 'g' then num (fun v => { p with threads_nb := toUnsigned v })
  else if c = 'f' then num (fun v => { p with compact_print := v })
  else .error (.status 1)

/-- the loop over the options (benchmark.cpp:745-796) -/
def options : List (Char × List Char) → Params → Except Driver.Exit Params
  | [], p => .ok p
  | a :: l, p =>
    match option p a.1 a.2 with
    | .ok p => options l p
    | .error x => .error x

/-- where `main` clears `operation_on_packet` (benchmark.cpp:798-807) -/
def onPackets (p : Params) : Params :=
  { p with operation_on_packet := p.operation_on_packet &&
      (p.fec_type == some .fnt || p.fec_type == some .fntSys || p.fec_type == some .nf4) && p.pkt_size != 0 }

/-- `get_sizeof_T` (benchmark.h:264-275), in `size_t` and converted to `int` -/
def get_sizeof_T (e : Ec) (p : Params) : Params :=
  if p.sizeof_T = -1 then
    let v := if e = .nf4 then wrap 64 ((wrap 64 (2 ^ 64 - 1 + p.word_size) / 2 + 1) * 4)
      else if e = .gfpFft ∧ p.word_size = 4 then 8
      else wrap 64 ((wrap 64 (2 ^ 64 - 1 + p.word_size) / 4 + 1) * 4)
    { p with sizeof_T := toInt (wrap 32 v) }
  else p

/-- `check_params` (benchmark.cpp:276-319) for `T` of `size` bytes: `none` for an error, else the adjusted `chunk_size`.  `k + m` is an `int`
(benchmark.cpp:43). -/
def check_params (size : Nat) (e : Ec) (p : Params) : Res (Option Nat) :=
  let w := p.word_size
  if p.k + p.m < -2 ^ 31 ∨ 2 ^ 31 ≤ p.k + p.m then ub
  else if w = 0 then .ok none
  else if e = .nf4 ∧ w < 2 then .ok none
  else if size < w then .ok none
  else if (e = .fnt ∨ e = .fntSys ∨ e = .gfpFft) ∧ size ≤ w then .ok none
  else if (e = .fnt ∨ e = .fntSys) ∧ 2 < w then .ok none
  else if e = .nf4 ∧ size < wrap 64 (2 * w) then .ok none
  else do
    let l ← Arith.log2 (p.k + p.m)
    if wrap 64 (8 * w) < l + 1 then pure none
    else if p.pkt_size = 0 then pure (some p.chunk_size)
    else
      let unit := wrap 64 (p.pkt_size * w)
      if unit = 0 then ub
      else if p.chunk_size % unit = 0 then pure (some p.chunk_size)
      else pure (some (wrap 64 (((p.chunk_size - 1) / unit + 1) * unit)))

/-- what a process does not choose (Model/DriverMain.lean), and moreover the time, what the memory of the chunks holds, and what
`std::random_shuffle` makes of the numbers of the chunks in each sample -/
structure Env extends Driver.Env where
  time : Nat
  chunk : Nat → Nat → Nat → Nat
  shuffles : Nat → List (Array Nat)

/-- the type with twice the bits (core.h:42-59), `__uint128_t` for `__uint128_t` as in Model/DriverMain.lean -/
def double (b : Nat) : Nat := if b = 128 then 128 else 2 * b

/-- The object `init` makes for `T` of `b` bits (benchmark.cpp:155-188).  The codes that work on packets are used in packets or word by word
(benchmark.cpp:473-540); word by word only the members for words matter. -/
def build (env : Driver.Env) (b : Nat) (e : Ec) (packets : Bool) (w k m pkt : Nat) : Res Object :=
  let fnt (sys : Bool) : Res Object :=
    if packets then
      (RsFntObj.mk' (.of env.reg b) b (double b) sys w k m pkt env.mem env.junk env.heap).map
        (fun x => ⟨Coder.vertical (x.2.fecV b) env.memDec env.junkEnc env.junkDec, (x.2.enc_context, x.1, (0 : Nat))⟩)
    else (RsFnt.mkBase b (double b) sys w k m pkt env.mem).map (fun B => env.words (RsFnt.fec B))
  match e with
  | .gf2nV => Driver.newGf2n env .vandermonde b w k m
  | .gf2nC => Driver.newGf2n env .cauchy b w k m
  | .gf2nFft => Driver.newGf2nFft env b w k m
  | .gf2nFftAdd => Driver.newGf2nFftAdd env b w k m
  | .gfpFft => (RsGfpFft.mkBase b (double b) w k m env.mem).map (fun c => env.words (RsGfpFft.fec b c))
  | .nf4 =>
    if packets then
      (RsNf4Obj.mk' b env.reg env.hi w k m pkt env.mem).map
        (fun R => ⟨Coder.vertical (R.fecV b) env.memDec env.junkEnc env.junkDec, (default, env.heap, (0 : Nat))⟩)
    else (RsNf4.mkCode b (RsNf4Obj.nf4Simd b env.reg env.hi) w k m pkt env.mem).map (fun c => env.words (RsNf4.fec c))
  | .fnt => fnt false
  | .fntSys => fnt true

/-- `systematic_ec` (benchmark.cpp:190): the classical codes and the systematic Fermat code -/
def Ec.systematic : Ec → Bool
  | .gf2nV | .gf2nC | .fntSys => true
  | _ => false

/-- memory of the chunks `init` allocates (benchmark.cpp:203-211) -/
def Env.chunks (env : Env) (kind count size : Nat) : List (Array Nat) :=
  (List.range count).map (fun i => Array.ofFn (fun j : Fin size => env.chunk kind i j))

/-- the members after `init` (benchmark.cpp:190-273); `PRNG(time(nullptr))` (prng.h:52-56) -/
def init (env : Env) (x : Object) (size : Nat) : State x.1.σ where
  prng := ⟨env.time, 0⟩
  d := env.chunks 0 x.1.n_data size
  c := env.chunks 1 x.1.n_outputs size
  r := env.chunks 2 x.1.n_data size
  props := Array.replicate x.1.n_outputs .empty
  fec := x.2

/-- `run` (benchmark.cpp:669-683): what the scenario returns -/
def scenario (env : Env) (p : Params) (sys : Bool) (x : Object) (size : Nat) : Res Bool :=
  let sh := (List.range p.samples_nb).map env.shuffles
  match p.sce_type with
  | .encOnly => (enc_only x.1 size p.samples_nb (init env x size)).map Prod.fst
  | .decOnly => (dec_only x.1 sys size sh (init env x size)).map Prod.fst
  | .encDec => (enc_dec x.1 sys size sh (init env x size)).map Prod.fst

/-- how the benchmark of a code ends: refused by `check_params`, with an exception that is caught, with what the scenario returned, `exit(0)`
as there is no type of the size, or a failed assertion, undefined behaviour or a loop that does not end -/
inductive Run where
  | refused
  | threw
  | ended (v : Bool)
  | noType
  | raised (e : Err)
  deriving DecidableEq

/-- exceptions are caught (benchmark.cpp:691) -/
def Run.ofErr : Err → Run
  | .throws _ => .threw
  | e => .raised e

/-- `init_run_bench` (benchmark.cpp:685-694) for `T` of `size` bytes, with the constructor (benchmark.cpp:35-65) -/
def init_run_bench (env : Env) (size : Nat) (e : Ec) (p : Params) : Run :=
  match check_params size e p with
  | .error x => .ofErr x
  | .ok none => .refused
  | .ok (some chunk_size) =>
    match build env.toEnv (8 * size) e p.operation_on_packet p.word_size (toUnsigned p.k) (toUnsigned p.m) p.pkt_size with
    | .error x => .ofErr x
    | .ok x =>
      match scenario env p e.systematic x chunk_size with
      | .error x => .ofErr x
      | .ok v => .ended v

/-- `run_scenario` (benchmark.cpp:696-719); the parameters as it leaves them -/
def run_scenario (env : Env) (e : Ec) (p : Params) : Run × Params :=
  let p := get_sizeof_T e p
  if p.sizeof_T = 2 ∨ p.sizeof_T = 4 ∨ p.sizeof_T = 8 ∨ p.sizeof_T = 16 then (init_run_bench env p.sizeof_T.toNat e p, p)
  else (.noType, p)

/-- the loop of `run_benchmark` over the codes (benchmark.cpp:724-727), until the process ends -/
def run_all (env : Ec → Env) : List Ec → Params → List Run
  | [], _ => []
  | e :: es, p =>
    match run_scenario (env e) e { p with fec_type := some e } with
    | (.noType, _) => [.noType]
    | (.raised x, _) => [.raised x]
    | (r, p) => r :: run_all env es p

/-- `run_benchmark` (benchmark.cpp:721-731) -/
def run_benchmark (env : Ec → Env) (p : Params) : List Run :=
  match p.fec_type with
  | none => run_all env Ec.every p
  | some e => [(run_scenario (env e) e p).1]

/-- members of the shared `Params_t` that `run_benchmark` writes -/
inductive Shared where
  | fec_type | sizeof_T
  deriving DecidableEq

/-- What a thread may write: `fec_type` in the loop over all codes (benchmark.cpp:725), `sizeof_T` if it is `-1` (benchmark.h:266-273) -/
def writes (p : Params) : List Shared :=
  (if p.fec_type = none then [.fec_type] else []) ++ (if p.sizeof_T = -1 then [.sizeof_T] else [])

/-- what every thread reads of these members (benchmark.cpp:723, 701; benchmark.h:266) -/
def reads (_ : Params) : List Shared := [.fec_type, .sizeof_T]

/-- Two threads run `run_benchmark` on the same `Params_t` with nothing that orders them (benchmark.cpp:813-817): one writes a member the other
reads or writes. -/
def races (p : Params) : Bool := decide (2 ≤ p.threads_nb) && (writes p).any (fun f => (reads p ++ writes p).contains f)

/-- what each thread saw of its codes, and how the program ends: a thread that cannot go on, or finds no type, ends the process -/
structure Outcome where
  runs : List (List Run)
  exit : Driver.Exit

/-- how a process whose threads did this ends; if several threads end it, which one comes first is not determined: here the first -/
def exitOf : List Run → Driver.Exit
  | [] => .status 0
  | .raised e :: _ => .raised e
  | .noType :: _ => .status 0
  | _ :: l => exitOf l

/-- `main` (benchmark.cpp:738-821); `env t e` is what thread `t` meets when it runs the code `e` -/
def main (env : Nat → Ec → Env) (args : List (Char × List Char)) : Outcome :=
  match options args {} with
  | .error x => ⟨[], x⟩
  | .ok p =>
    let p := onPackets p
    if races p then ⟨[], .raised .ub⟩
    else
      let runs := (List.range p.threads_nb).map (fun t => run_benchmark (env t) p)
      ⟨runs, exitOf runs.flatten⟩

/-- the option string (benchmark.cpp:745) -/
def optstring : List Char := "t:e:w:k:m:c:n:s:x:g:p:f:".toList

/-- `main` (benchmark.cpp:738-821) with its arguments -/
def mainArgv (env : Nat → Ec → Env) (posix : Bool) (argv : List (List Char)) : Outcome := main env (Driver.getopt optstring posix argv.tail)

end Quad.Bench
