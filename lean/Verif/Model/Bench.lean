import Verif.Model.Driver

/-!
# Model of benchmark/: the chunks of the benchmark, and its runs

`Benchmark<T>` (benchmark.h, benchmark.cpp) fills chunks with pseudo-random bytes and their checksum (prng.h), codes them, decodes
random subsets and checks what it gets.  Chunks are blocks of memory that streams read and write (iostreambuf.h).  The code object is a
`Driver.Coder`, as in the model of the file program.  What `std::random_shuffle` makes of the numbers of the chunks is an argument.
Not modelled: the times measured (stats.h) and what is printed.
-/

namespace Quad.Bench
open Quad.Driver

/-! ## prng.h -/

/-- `PRNG` (prng.h:46-49) -/
structure Prng where
  state : Nat
  inc : Nat

/-- `_rand` (prng.h:67-74) -/
def Prng.rand (P : Prng) : Nat × Prng :=
  let xorshifted := wrap 32 (((P.state >>> 18) ^^^ P.state) >>> 27)
  let rot := P.state >>> 59
  (wrap 32 ((xorshifted >>> rot) ||| (xorshifted <<< ((2 ^ 32 - rot) % 32))),
    { P with state := wrap 64 (P.state * 6364136223846793005 + P.inc) })

/-- `srandom` (prng.h:58-65) -/
def Prng.srandom (initstate initseq : Nat) : Prng :=
  let P := (Prng.mk 0 (wrap 64 (initseq <<< 1) ||| 1)).rand.2
  { P with state := wrap 64 (P.state + initstate) }.rand.2

/-- `POLY` (prng.h:38) -/
def POLY : Nat := 0x82f63b78

/-- one turn of the inner loops (prng.h:92, 120) -/
def crcBit (crc : Nat) : Nat := if crc &&& 1 ≠ 0 then (crc >>> 1) ^^^ POLY else crc >>> 1

/-- a byte of a chunk enters the checksum (prng.h:90-92, 118-120) -/
def crcByte (crc val : Nat) : Nat :=
  crcBit (crcBit (crcBit (crcBit (crcBit (crcBit (crcBit (crcBit (crc ^^^ val))))))))

/-- `~crc` for a `uint32_t` -/
def not32 (crc : Nat) : Nat := 2 ^ 32 - 1 - crc

/-- a `uint32_t` written to the first four bytes (prng.h:94; little-endian) -/
def putCrc (buf : Array Nat) (v : Nat) : Res (Array Nat) := do
  let buf ← wr buf 0 (v % 256)
  let buf ← wr buf 1 (v / 2 ^ 8 % 256)
  let buf ← wr buf 2 (v / 2 ^ 16 % 256)
  wr buf 3 (v / 2 ^ 24 % 256)

/-- the `uint32_t` in the first four bytes (prng.h:102, 122) -/
def getCrc (buf : Array Nat) : Res Nat := do
  let a ← rd buf 0
  let b ← rd buf 1
  let c ← rd buf 2
  let d ← rd buf 3
  pure (a + 2 ^ 8 * b + 2 ^ 16 * c + 2 ^ 24 * d)

/-- `gen_chunk` (prng.h:76-96) -/
def gen_chunk (P : Prng) (buf : Array Nat) (size : Nat) : Res (Array Nat × Prng) :=
  if size < 4 then do
    let buf ← wr buf 0 (P.rand.1 % 256)
    let buf ← forN (size - 1) buf (fun i buf => do
      let v ← rd buf 0
      wr buf (1 + i) v)
    pure (buf, P.rand.2)
  else do
    let (buf, crc, P) ← forN (size - 4) (buf, not32 0, P) (fun i s => do
      let val := s.2.2.rand.1 % 256
      let buf ← wr s.1 (4 + i) val
      pure (buf, crcByte s.2.1 val, s.2.2.rand.2))
    let buf ← putCrc buf (not32 crc)
    pure (buf, P)

/-- `get_crc` (prng.h:98-103) -/
def get_crc (buf : Array Nat) (size : Nat) : Res Nat := if size < 4 then ok 0 else getCrc buf

/-- `check_chunk` (prng.h:105-127).  The first loop ends at the first difference; here it goes on, without effects. -/
def check_chunk (buf : Array Nat) (size : Nat) : Res Bool :=
  if size < 4 then do
    let val ← rd buf 0
    forN (size - 1) true (fun i same => do
      let x ← rd buf (1 + i)
      pure (same && x == val))
  else do
    let crc ← forN (size - 4) (not32 0) (fun i crc => do
      let x ← rd buf (4 + i)
      pure (crcByte crc x))
    let c ← getCrc buf
    pure (c == not32 crc)

/-! ## `Benchmark<T>` -/

/-- `check` (benchmark.cpp:334-344) -/
def check (size : Nat) : List (Array Nat) → Res Bool
  | [] => ok true
  | c :: cs => do
    if ← check_chunk c size then check size cs else pure false

/-- the loop of `compare` on the checksums (benchmark.cpp:355-363) -/
def sameCrcs (size : Nat) : List (Array Nat) → List (Array Nat) → Res Bool
  | a :: as, b :: bs => do
    let x ← get_crc a size
    let y ← get_crc b size
    if x = y then sameCrcs size as bs else pure false
  | _, _ => ok true

/-- `compare` (benchmark.cpp:346-369) -/
def compare (size : Nat) (arr1 arr2 : List (Array Nat)) : Res Bool :=
  if arr1.length ≠ arr2.length then ok false
  else do
    if ← sameCrcs size arr1 arr2 then
      if ← check size arr1 then check size arr2 else pure false
    else pure false

/-- What a chunk holds after `s` was written to an `ostreambuf` on it from its begin (iostreambuf.h:37-58): a stream refuses what is beyond
the end. -/
def store (old : Array Nat) (s : List Nat) : Array Nat := (s.take old.size ++ old.toList.drop s.length).toArray

/-- the members that change in a run (benchmark.h:287-329) -/
structure State (σ : Type) where
  prng : Prng
  d : List (Array Nat)
  c : List (Array Nat)
  r : List (Array Nat)
  props : Array Properties
  fec : σ

variable (F : Coder)

/-- the chunks filled one after the other (benchmark.cpp:324-326) -/
def genAll (size : Nat) : List (Array Nat) → Prng → Res (List (Array Nat) × Prng)
  | [], P => ok ([], P)
  | b :: bs, P => do
    let (b, P) ← gen_chunk P b size
    let (bs, P) ← genAll size bs P
    pure (b :: bs, P)

/-- `gen_data` (benchmark.cpp:321-332); `std::runtime_error` counts as a logic error -/
def gen_data (size : Nat) (st : State F.σ) : Res (State F.σ) := do
  let (d, P) ← genAll size st.d st.prng
  if ← check size d then pure { st with d := d, prng := P } else .error (.throws .logicError)

/-- the chunks after a function of the code has written to the streams on them -/
def storeAll (old : List (Array Nat)) (o : Array (Option (List Nat))) : List (Array Nat) :=
  List.zipWith (fun c s => store c (s.getD [])) old o.toList

/-- `encode` (benchmark.cpp:473-492), with `reset_d_streams` and `reset_c_streams` (benchmark.cpp:395-412) -/
def encode (st : State F.σ) : Res (State F.σ) := do
  let (o, p, s) ← F.enc st.fec (st.d.map Array.toList).toArray (Array.replicate F.n_outputs []) st.props
  pure { st with c := storeAll st.c o, props := p, fec := s }

/-- The chunks `get_avail_chunks` makes available after a shuffle (benchmark.cpp:442-470): marks for data chunks and coded chunks,
and the number of data chunks.  `ids` is what the shuffle made of the numbers of the chunks. -/
def pick (sys : Bool) (k n_c : Nat) (ids : Array Nat) : Res (Array Bool × Array Bool × Nat) :=
  forN k (Array.replicate k false, Array.replicate n_c false, 0) (fun i s => do
    let j ← rd ids i
    if sys then
      if j < k then do
        let d ← wr s.1 j true
        pure (d, s.2.1, s.2.2 + 1)
      else do
        let c ← wr s.2.1 (j - k) true
        pure (s.1, c, s.2.2)
    else do
      let c ← wr s.2.1 j true
      pure (s.1, c, s.2.2))

/-- `get_avail_chunks` (benchmark.cpp:433-471): it shuffles again while only data chunks are chosen.  It does not return if that goes on. -/
def get_avail_chunks (sys : Bool) (k n_c : Nat) : List (Array Nat) → Res (Array Bool × Array Bool)
  | [] => .error .diverges
  | ids :: shuffles => do
    let (d, c, nb) ← pick sys k n_c ids
    if sys && nb == k then get_avail_chunks sys k n_c shuffles else pure (d, c)

/-- a stream on a chunk if it is marked, a null pointer if not -/
def streams (marks : Array Bool) (chunks : List (Array Nat)) : Array (Option (List Nat)) :=
  (List.zipWith (fun a c => if a then some c.toList else none) marks.toList chunks).toArray

/-- `decode` (benchmark.cpp:494-540), with `reset_a_streams` and `reset_r_streams` (benchmark.cpp:414-431) -/
def decode (sys : Bool) (size : Nat) (shuffles : List (Array Nat)) (st : State F.σ) : Res (Bool × State F.σ) := do
  let (d, c) ← get_avail_chunks sys F.n_data F.n_outputs shuffles
  let props := (List.zipWith (fun a p => if a then p else .empty) c.toList st.props.toList).toArray
  let (v, o, s) ← F.dec st.fec (streams d st.d) (streams c st.c) props (Array.replicate F.n_data (some []))
  let st := { st with r := storeAll st.r o, fec := s }
  if !v then pure (false, st)
  else if !(← compare size st.d st.r) then pure (false, st)
  else if !(← check size st.r) then pure (false, st)
  else pure (true, st)

/-- the loop of `enc_only` (benchmark.cpp:580-583) -/
def encLoop : Nat → State F.σ → Res (Bool × State F.σ)
  | 0, st => ok (true, st)
  | n + 1, st => do
    let st ← encode F st
    encLoop n st

/-- the loops of `dec_only` (benchmark.cpp:603-606) and `enc_dec` (benchmark.cpp:624-629); one list of shuffles for each turn -/
def decLoop (both sys : Bool) (size : Nat) : List (List (Array Nat)) → State F.σ → Res (Bool × State F.σ)
  | [], st => ok (true, st)
  | sh :: rest, st => do
    let st ← if both then encode F st else ok st
    let (v, st) ← decode F sys size sh st
    if v then decLoop both sys size rest st else pure (false, st)

/-- `enc_only` (benchmark.cpp:573-589), without times -/
def enc_only (size samples_nb : Nat) (st : State F.σ) : Res (Bool × State F.σ) := do
  let st ← gen_data F size st
  encLoop F samples_nb st

/-- `dec_only` (benchmark.cpp:591-613), without times; as many samples as lists of shuffles -/
def dec_only (sys : Bool) (size : Nat) (shuffles : List (List (Array Nat))) (st : State F.σ) : Res (Bool × State F.σ) := do
  let st ← gen_data F size st
  let st ← encode F st
  decLoop F false sys size shuffles st

/-- `enc_dec` (benchmark.cpp:615-635), without times; as many samples as lists of shuffles -/
def enc_dec (sys : Bool) (size : Nat) (shuffles : List (List (Array Nat))) (st : State F.σ) : Res (Bool × State F.σ) := do
  let st ← gen_data F size st
  decLoop F true sys size shuffles st

end Quad.Bench
