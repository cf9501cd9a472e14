import Verif.Model.BenchMain
import Verif.Spec.Bench
import Verif.Spec.DriverMain
import Verif.Spec.FecFft
import Verif.Spec.FecGf2n

/-!
# Vocabulary for the parameters of the benchmark (C72, C73)
-/

namespace Quad.Spec
open Quad.Bench

/-- argument of the last option with the letter `c` -/
def lastOf (c : Char) (args : List (Char × List Char)) : Option (List Char) := ((args.filter (fun a => a.1 == c)).getLast?).map Prod.snd

/-- the number in the last option with the letter `c`, or a default -/
def numberOf (c : Char) (default : Int) (args : List (Char × List Char)) : Int :=
  match lastOf c args with
  | none => default
  | some s => match Driver.stoi s with | .ok v => v | .error _ => default

/-- the names of the codes; `all` asks for every code -/
def benchCodes : List (String × Option Ec) :=
  [("all", none), ("rs-gf2n-v", some .gf2nV), ("rs-gf2n-c", some .gf2nC), ("rs-gf2n-fft", some .gf2nFft), ("rs-gf2n-fft-add", some .gf2nFftAdd),
   ("rs-gfp-fft", some .gfpFft), ("rs-fnt", some .fnt), ("rs-fnt-sys", some .fntSys), ("rs-nf4", some .nf4)]

/-- the names of the scenarios -/
def benchScenarios : List (String × Scenario) := [("enc_only", .encOnly), ("dec_only", .decOnly), ("enc_dec", .encDec)]

/-- what a name stands for in a list of names -/
def named {α : Type} (names : List (String × α)) (s : List Char) : Option α := (names.find? (fun x => x.1.toList == s)).map Prod.snd

/-- an option of the benchmark with an argument that means something -/
def ValidOption (a : Char × List Char) : Prop :=
  (a.1 ∈ ['t', 'w', 'k', 'm', 'c', 'p', 'n', 'x', 'g', 'f'] ∧ ∃ v, Driver.stoi a.2 = .ok v) ∨
  (a.1 = 'e' ∧ ∃ e, named benchCodes a.2 = some e) ∨ (a.1 = 's' ∧ ∃ e, named benchScenarios a.2 = some e)

/-- What options ask for: for each parameter the value in the last option for it, or its default.  Sizes are converted to 64 bits, counts of samples
and threads to 32. -/
def askedFor (args : List (Char × List Char)) : Params where
  fec_type := ((lastOf 'e' args).bind (named benchCodes)).join
  word_size := (numberOf 'w' 2 args % 2 ^ 64).toNat
  k := numberOf 'k' 3 args
  m := numberOf 'm' 2 args
  operation_on_packet := true
  pkt_size := (numberOf 'p' 1024 args % 2 ^ 64).toNat
  chunk_size := (numberOf 'c' 512 args % 2 ^ 64).toNat
  samples_nb := (numberOf 'n' 100 args % 2 ^ 32).toNat
  sizeof_T := numberOf 't' (-1) args
  sce_type := ((lastOf 's' args).bind (named benchScenarios)).getD .encDec
  threads_nb := (numberOf 'g' 4 args % 2 ^ 32).toNat
  compact_print := numberOf 'f' 1 args

/-- bytes of the integer type used when none is asked for -/
def defaultType (e : Ec) (w : Nat) : Nat :=
  if e = .nf4 then 4 * ((w + 1) / 2) else if e = .gfpFft ∧ w = 4 then 8 else 4 * ((w + 3) / 4)

/-- the integer type has `size` bytes: it was asked for, or is the default -/
def UsesType (e : Ec) (p : Params) (size : Nat) : Prop :=
  size ∈ [2, 4, 8, 16] ∧ (p.sizeof_T = size ∨ p.sizeof_T = -1 ∧ size = defaultType e p.word_size)

/-- Sizes of chunks and packets: positive chunks; without packets the chunks are whole words. -/
structure ChunksOk (p : Params) : Prop where
  pos : 0 < p.chunk_size
  chunk : p.chunk_size < 2 ^ 31
  pkt : p.pkt_size < 2 ^ 31
  whole : p.pkt_size = 0 → p.word_size ∣ p.chunk_size

/-- Parameters with which the benchmark accepts a code and the code works: the word size is one of the code, the type has room for a word,
or for the sums and products it needs, and the code length is below `2^(8w)` and what the code supports. -/
def Workable (e : Ec) (size w k m : Nat) : Prop :=
  0 < k ∧ 0 < m ∧ k + m < 2 ^ (8 * w) ∧ k + m < 2 ^ 31 ∧
  match e with
  | .fnt | .fntSys => (w = 1 ∨ w = 2) ∧ w < size ∧ size ≤ 8 ∧ 2 * k ≤ 2 ^ (8 * w)
  | .nf4 => (w = 2 ∨ w = 4 ∨ w = 8) ∧ 2 * w ≤ size ∧ k + m ≤ 65536 ∧ 2 * k ≤ 65536
  | .gfpFft => ((w = 1 ∨ w = 2) ∧ (size = 4 ∨ size = 8) ∧ 2 * k ≤ 2 ^ (8 * w)) ∨ (w = 4 ∧ size = 8 ∧ k + m ≤ 1073747968 ∧ 2 * k ≤ 8192)
  | .gf2nV => w ∈ [1, 2, 4, 8, 16] ∧ w ≤ size ∧ 2 < size
  | .gf2nC => w ∈ [1, 2, 4, 8, 16] ∧ w ≤ size ∧ 2 < size ∧ m ≤ 2
  | .gf2nFft => w ∈ [1, 2, 4, 8, 16] ∧ w ≤ size ∧ 2 < size ∧ k + m ≤ fftMax w ∧ 2 * k ≤ fftMax w
  | .gf2nFftAdd => w ∈ [1, 2, 4, 8, 16] ∧ w ≤ size ∧ 2 < size ∧ k + m ≤ 2 ^ 30 ∧ 2 * k < 2 ^ (8 * w)

/-- How the code is used: in packets, only the codes that can, with packets that are not empty, and the Fermat number codes in a vectorised build
only with 64 bits or words half as wide as the type; the systematic Fermat number code only so. -/
def UseOk (e : Ec) (size : Nat) (p : Params) (reg : Option Nat) : Prop :=
  (p.operation_on_packet = true → 0 < p.pkt_size ∧ ((e = .fnt ∨ e = .fntSys) → reg ≠ none → size = 8 ∨ size = 2 * p.word_size)) ∧
  (e = .fntSys → p.operation_on_packet = true)

/-- the parameters with the way the code is used: in packets if the code can and packets have a size -/
def used (p : Params) : Params :=
  { p with operation_on_packet := decide ((p.fec_type = some .fnt ∨ p.fec_type = some .fntSys ∨ p.fec_type = some .nf4) ∧ p.pkt_size ≠ 0) }

end Quad.Spec
