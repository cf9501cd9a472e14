import Mathlib.Algebra.Order.Field.Rat
import Verif.Model.Bench

/-!
# Model of benchmark/stats.h and of how the benchmark uses it

The figures are fractions: the rounding of `double` is left out.  Times are an argument: `tE i` and `tD i` are `total_enc_usec` after the `i`-th encoding and
`total_dec_usec` after the `i`-th decoding of a scenario.
-/

namespace Quad.Bench
open Quad.Driver

/-- `Stats_t` (stats.h:38-99), without the name and the figures `end` computes -/
structure StatsT where
  nb : Nat
  sum : Nat
  sum_2 : Nat
  work_load : Nat
  deriving DecidableEq, Repr

namespace StatsT

/-- constructor (stats.h:40-48) -/
def mk' (work_load : Nat) : StatsT := { nb := 0, sum := 0, sum_2 := 0, work_load := work_load }

/-- `begin` (stats.h:50-55) -/
def begin (s : StatsT) : StatsT := { s with nb := 0, sum := 0, sum_2 := 0 }

/-- `add` (stats.h:57-62); `uint64_t` wraps -/
def add (val : Nat) (s : StatsT) : StatsT :=
  { s with nb := wrap 64 (s.nb + 1), sum := wrap 64 (s.sum + val), sum_2 := wrap 64 (s.sum_2 + wrap 64 (val * val)) }

/-- `avg` after `end` (stats.h:66); `none` for 0 / 0, which is not a number -/
def avg (s : StatsT) : Option Rat := if s.nb = 0 then none else some ((s.sum : Rat) / s.nb)

/-- the square of `std_dev` after `end` (stats.h:67-68); `none` if it is not a number, as the root of a negative number is not -/
def std_dev_2 (s : StatsT) : Option Rat :=
  match s.avg with
  | none => none
  | some a => if (s.sum_2 : Rat) / s.nb - a * a < 0 then none else some ((s.sum_2 : Rat) / s.nb - a * a)

/-- `get_thrpt` (stats.h:88-91); `none` for a division by zero or of what is not a number -/
def get_thrpt (s : StatsT) : Option Rat :=
  match s.avg with
  | none => none
  | some a => if a = 0 then none else some (s.work_load / a)

end StatsT

variable (F : Coder)

/-- the loop of `enc_only` with `enc_stats` (benchmark.cpp:485-486, 580-583) -/
def encLoopT (tE : Nat → Nat) : Nat → Nat → State F.σ → StatsT → Res ((Bool × State F.σ) × StatsT)
  | 0, _, st, e => ok ((true, st), e)
  | n + 1, i, st, e => do
    let st ← encode F st
    encLoopT tE n (i + 1) st (e.add (tE i))

/-- the loops of `dec_only` and `enc_dec` with `enc_stats` and `dec_stats` (benchmark.cpp:485-486, 536-537, 603-606, 624-629) -/
def decLoopT (tE tD : Nat → Nat) (both sys : Bool) (size : Nat) : List (List (Array Nat)) → Nat → State F.σ → StatsT → StatsT →
    Res ((Bool × State F.σ) × StatsT × StatsT)
  | [], _, st, e, d => ok ((true, st), e, d)
  | sh :: rest, i, st, e, d => do
    let st ← (if both then encode F st else ok st)
    let e := if both then e.add (tE i) else e
    let (v, st) ← decode F sys size sh st
    if v then decLoopT tE tD both sys size rest (i + 1) st e (d.add (tD i)) else pure ((false, st), e, d)

/-- `enc_only` with what is shown (benchmark.cpp:573-589): nothing if it returns `false` -/
def enc_onlyT (tE : Nat → Nat) (size samples_nb : Nat) (st : State F.σ) (e : StatsT) : Res ((Bool × State F.σ) × List StatsT) := do
  let e := e.begin
  let st ← gen_data F size st
  let (r, e) ← encLoopT F tE samples_nb 0 st e
  pure (r, if r.1 then [e] else [])

/-- `dec_only` with what is shown (benchmark.cpp:591-613): nothing if it returns `false` -/
def dec_onlyT (tE tD : Nat → Nat) (sys : Bool) (size : Nat) (shuffles : List (List (Array Nat))) (st : State F.σ) (e d : StatsT) :
    Res ((Bool × State F.σ) × List StatsT) := do
  let e := e.begin
  let d := d.begin
  let st ← gen_data F size st
  let st ← encode F st
  let (r, e, d) ← decLoopT F tE tD false sys size shuffles 0 st (e.add (tE 0)) d
  pure (r, if r.1 then [e, d] else [])

/-- `enc_dec` with what is shown (benchmark.cpp:615-635): nothing if it returns `false` -/
def enc_decT (tE tD : Nat → Nat) (sys : Bool) (size : Nat) (shuffles : List (List (Array Nat))) (st : State F.σ) (e d : StatsT) :
    Res ((Bool × State F.σ) × List StatsT) := do
  let e := e.begin
  let d := d.begin
  let st ← gen_data F size st
  let (r, e, d) ← decLoopT F tE tD true sys size shuffles 0 st e d
  pure (r, if r.1 then [e, d] else [])

end Quad.Bench
