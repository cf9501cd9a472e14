import Verif.Model.Simd
import Verif.Spec.Session
import Mathlib.LinearAlgebra.Lagrange
import Mathlib.Data.ZMod.Basic
import Mathlib.Algebra.Field.ZMod
import Mathlib.Data.Nat.Digits.Defs

/-!
# What the Fermat-number codes are, and histories of a code object

This file is the vocabulary of the theorems about streams and blocks coded in
packets.  It mentions the model only through its entry points: the constructor
`RsFntObj.mk'`, `encode_streams_vertical`, `decode_streams_vertical`,
`encode_blocks_vertical`, `decode_blocks_vertical` and packets one by one (Spec/Session.lean).
-/

namespace Quad.Spec
open Quad Finset Polynomial

/-- The parameters of a code: words of `w` bytes, `k` data fragments, `m` parities,
element type of `b` bits with double size `db`. -/
structure FntCode where
  b : Nat
  db : Nat
  w : Nat
  k : Nat
  m : Nat
  sys : Bool

/-- number of output fragments: the parities in systematic mode, else all -/
def FntCode.nOut (c : FntCode) : Nat := if c.sys then c.m else c.k + c.m

/-- the instances the library can build: `uint16_t` with word size 1, `uint32_t` or `uint64_t` with word size 1
or 2, at least one fragment of each kind, code length at most `2^(8w)`, and the
restriction that the constructor asserts, `2 * n_data < 2^(8w) + 1` (fec_rs_fnt.h:113) -/
structure FntCode.Ok (c : FntCode) : Prop where
  type : (c.b = 32 ∧ c.db = 64) ∨ (c.b = 64 ∧ c.db = 128) ∨ (c.b = 16 ∧ c.db = 32 ∧ c.w = 1)
  hw : c.w = 1 ∨ c.w = 2
  hk : 0 < c.k
  hm : 0 < c.m
  len : c.k + c.m ≤ 2 ^ (8 * c.w)
  two : 2 * c.k ≤ 2 ^ (8 * c.w)

/-- the polynomial of a row of data words: the words are its coefficients, or in
systematic mode its values at the first `k` powers of `g` -/
noncomputable def rowPoly {p : Nat} [Fact p.Prime] (g : ZMod p) (sys : Bool) (k : Nat) (a : Array Nat) : (ZMod p)[X] :=
  if sys then Lagrange.interpolate (range k) (fun i => g ^ i) (fun i => ((gt a i : Nat) : ZMod p))
  else ∑ i ∈ range a.size, C ((gt a i : Nat) : ZMod p) * X ^ i

/-- symbol of output `f` for a row of data words -/
noncomputable def symbol {p : Nat} [Fact p.Prime] (g : ZMod p) (sys : Bool) (k : Nat) (a : Array Nat) (f : Nat) : Nat :=
  ((rowPoly g sys k a).eval (g ^ (if sys then k + f else f))).val

/-- word `t` of a stream of bytes, little-endian -/
def word (w : Nat) (s : List Nat) (t : Nat) : Nat := Nat.ofDigits 256 ((s.drop (t * w)).take w)

/-- the symbol at location `t` of a fragment with its properties: `2^(8w)`
if the location is marked, else the stored word -/
def restored (w : Nat) (s : List Nat) (P : Properties) (t : Nat) : Nat :=
  if t ∈ P.props.map Prod.fst then 2 ^ (8 * w) else word w s t

/-- `k` streams of `T` words -/
structure FntCode.Data (c : FntCode) (data : Array (List Nat)) (T : Nat) : Prop where
  size : data.size = c.k
  bytes : ∀ i, i < c.k → ∀ x ∈ gt data i, x < 256
  len : ∀ i, i < c.k → (gt data i).length = T * c.w

/-- `k` streams of `L` bytes; the last word may be short -/
structure FntCode.Bytes (c : FntCode) (data : Array (List Nat)) (L : Nat) : Prop where
  size : data.size = c.k
  bytes : ∀ i, i < c.k → ∀ x ∈ gt data i, x < 256
  len : ∀ i, i < c.k → (gt data i).length = L

theorem FntCode.Data.toBytes {c : FntCode} {data : Array (List Nat)} {T : Nat} (h : c.Data data T) : c.Bytes data (T * c.w) :=
  ⟨h.size, h.bytes, h.len⟩

/-- number of words of `L` bytes, the last one possibly short -/
def FntCode.words (c : FntCode) (L : Nat) : Nat := (L + c.w - 1) / c.w

/-- streams of `L` bytes completed with zeros to whole words -/
def FntCode.padded (c : FntCode) (data : Array (List Nat)) (L : Nat) : Array (List Nat) :=
  data.map (fun s => s ++ List.replicate (c.words L * c.w - L) 0)

/-- the whole words of streams of `L` bytes -/
def FntCode.whole (c : FntCode) (data : Array (List Nat)) (L : Nat) : Array (List Nat) :=
  data.map (fun s => s.take (L / c.w * c.w))

/-- The builds of the library the theorems cover: scalar, or vectorised with registers of 16 or 32
bytes.  In a vectorised build with elements of 16 or 32 bits, words must be half as wide as elements: its constants are those of
257 in 16 bits and 65537 in 32 bits. -/
def FntCode.Builds (c : FntCode) (simd : Option Nat) : Prop :=
  ∀ R, simd = some R → (R = 16 ∨ R = 32) ∧ (c.b = 64 ∨ c.b = 16 * c.w)

/-- the constructor, in any build: code object `R` and heap `H'` -/
def FntCode.New (c : FntCode) (pkt : Nat) (R : RsFntObj) (H : Heap) : Prop :=
  ∃ simd, c.Builds simd ∧ ∃ mem junk H0, RsFntObj.mk' (.of simd c.b) c.b c.db c.sys c.w c.k c.m pkt mem junk H0 = .ok (H, R)

/-- `frags` and `props` are what a new code object, with some packet size, writes to empty
streams when it encodes `data` -/
def FntCode.Encoded (c : FntCode) (data frags : Array (List Nat)) (props : Array Properties) : Prop :=
  ∃ pkt R H junk enc H', 0 < pkt ∧ c.New pkt R H ∧
    (R.fecV c.b).encode_streams_vertical R.enc_context data (Array.replicate c.nOut []) (Array.replicate c.nOut .empty) junk H
      = .ok (frags.map some, props, enc, H')

/-- streams to decode from: each present data stream (systematic mode) and each present output
stream is as encoded, with its properties -/
structure FntCode.Surviving (c : FntCode) (data frags : Array (List Nat)) (fprops : Array Properties)
    (datas pars : Array (Option (List Nat))) (props : Array Properties) : Prop where
  dsize : c.sys = true → datas.size = c.k
  psize : pars.size = c.nOut
  prsize : props.size = c.nOut
  dat : c.sys = true → ∀ i s, i < c.k → gt datas i = some s → s = gt data i
  par : ∀ f s, f < c.nOut → gt pars f = some s → s = gt frags f ∧ gt props f = gt fprops f

/-- number of streams that are not missing -/
def avail (a : Array (Option (List Nat))) : Nat := a.toList.countP Option.isSome

/-- `blk` is a block of bytes that starts with `s` -/
def StartsWith (blk : Option (Array Nat)) (s : List Nat) : Prop := ∃ d, blk = some d ∧ (∀ x ∈ d.toList, x < 256) ∧ s <+: d.toList

/-- blocks to decode from, where `missing` tells which fragments are missing -/
structure FntCode.SurvivingBlocks (c : FntCode) (data frags : Array (List Nat)) (fprops : Array Properties)
    (datas pars : Array (Option (Array Nat))) (props : Array Properties) (missing : Array Bool) : Prop where
  dsize : datas.size = c.k
  psize : pars.size = c.nOut
  prsize : props.size = c.nOut
  msize : missing.size = if c.sys then c.k + c.m else c.nOut
  dat : c.sys = true → ∀ i, i < c.k → gt missing i = false → StartsWith (gt datas i) (gt data i)
  par : ∀ f, f < c.nOut → gt missing (if c.sys then c.k + f else f) = false →
    StartsWith (gt pars f) (gt frags f) ∧ gt props f = gt fprops f

/-- streams of `T` words to decode from, with any contents, and any properties -/
structure FntCode.AnyStreams (c : FntCode) (T : Nat) (datas pars : Array (Option (List Nat))) (props : Array Properties) : Prop where
  dsize : c.sys = true → datas.size = c.k
  psize : pars.size = c.nOut
  prsize : props.size = c.nOut
  dat : c.sys = true → ∀ i s, i < c.k → gt datas i = some s → s.length = T * c.w ∧ ∀ x ∈ s, x < 256
  par : ∀ f s, f < c.nOut → gt pars f = some s → s.length = T * c.w ∧ ∀ x ∈ s, x < 256

/-- blocks of at least `T` words to decode from, with any contents, and any properties -/
structure FntCode.AnyBlocks (c : FntCode) (T : Nat) (datas pars : Array (Option (Array Nat))) (props : Array Properties)
    (missing : Array Bool) : Prop where
  dsize : datas.size = c.k
  psize : pars.size = c.nOut
  prsize : props.size = c.nOut
  msize : missing.size = if c.sys then c.k + c.m else c.nOut
  dat : c.sys = true → ∀ i, i < c.k → gt missing i = false → ∃ d, gt datas i = some d ∧ T * c.w ≤ d.size ∧ ∀ x ∈ d.toList, x < 256
  par : ∀ f, f < c.nOut → gt missing (if c.sys then c.k + f else f) = false →
    ∃ d, gt pars f = some d ∧ T * c.w ≤ d.size ∧ ∀ x ∈ d.toList, x < 256

/-- the streams of all fragments, in the order of their numbers: in systematic mode the data come first -/
def FntCode.fragments (c : FntCode) (datas pars : Array (Option (List Nat))) : Array (Option (List Nat)) :=
  if c.sys then datas ++ pars else pars

/-- the first `T` words of the blocks that are not missing, in the order of their numbers -/
def FntCode.blockFragments (c : FntCode) (T : Nat) (datas pars : Array (Option (Array Nat))) (missing : Array Bool) :
    Array (Option (List Nat)) :=
  Array.ofFn (n := missing.size) (fun j => if gt missing j then none
    else (gt (if c.sys then datas ++ pars else pars) j.1).map (fun d => d.toList.take (T * c.w)))

/-- numbers of the first `k` available fragments -/
def picked (k : Nat) (fr : Array (Option (List Nat))) : List Nat := ((List.range fr.size).filter (fun i => (gt fr i).isSome)).take k

/-- the symbol of fragment `j` at location `t`: `2^(8w)` if its properties, if it has any, mark the location, else the stored word -/
def FntCode.seen (c : FntCode) (fr : Array (Option (List Nat))) (props : Array Properties) (j t : Nat) : Nat :=
  if (c.sys = false ∨ c.k ≤ j) ∧ (t, OOR_MARK) ∈ (gt props (if c.sys then j - c.k else j)).props then 2 ^ (8 * c.w)
  else word c.w ((gt fr j).getD []) t

/-- the tasks a program may run at once on a code object -/
def FntCode.TaskOk (c : FntCode) : Task → Prop :=
  Task.Ok c.sys c.k c.m c.nOut (fun data frags fprops => ∃ T, c.Data data T ∧ c.Encoded data frags fprops)

/-- Histories of a code object with packet size `pkt`: the object, its context for
encoding and the heap after any number of calls, in any order, on any data; what is decoded may be fragments
of an encoding or have any contents and properties.
Between the calls the program may allocate memory. -/
inductive FntCode.Reachable (c : FntCode) (pkt : Nat) : RsFntObj → CtxB → Heap → Prop
  | new {R H} : c.New pkt R H → c.Reachable pkt R R.enc_context H
  | alloc {R C H H'} : c.Reachable pkt R C H → H.size ≤ H'.size → (∀ b, b < H.size → gt H' b = gt H b) → c.Reachable pkt R C H'
  | encode {R C H data L outs props junk o p C' H'} : c.Reachable pkt R C H → c.Bytes data L →
      (R.fecV c.b).encode_streams_vertical C data outs props junk H = .ok (o, p, C', H') → c.Reachable pkt R C' H'
  | decode {R C H data T frags fprops datas pars outs props mem junk o v H'} : c.Reachable pkt R C H → c.Data data T →
      c.Encoded data frags fprops → c.Surviving data frags fprops datas pars props →
      (R.fecV c.b).decode_streams_vertical datas pars props outs mem junk H = .ok (v, o, H') → c.Reachable pkt R C H'
  | encodeBlocks {R C H data T bytes datas pars props wanted junk o p C' H'} : c.Reachable pkt R C H → c.Data data T →
      bytes / c.w = T → datas.size = c.k → (∀ i, i < c.k → StartsWith (gt datas i) (gt data i)) → c.nOut ≤ wanted.size →
      (∀ f, f < c.nOut → gt wanted f = true → ∃ d, gt pars f = some d ∧ T * c.w ≤ d.size) →
      (R.fecV c.b).encode_blocks_vertical C datas pars props wanted bytes junk H = .ok (o, p, C', H') → c.Reachable pkt R C' H'
  | decodeBlocks {R C H data T bytes frags fprops datas pars props missing wanted mem junk v o H'} : c.Reachable pkt R C H →
      c.Data data T → bytes / c.w = T → c.Encoded data frags fprops →
      c.SurvivingBlocks data frags fprops datas pars props missing → c.k ≤ wanted.size →
      (∀ i, i < c.k → gt wanted i = true → ∃ d, gt datas i = some d ∧ T * c.w ≤ d.size) →
      (R.fecV c.b).decode_blocks_vertical datas pars props missing wanted bytes mem junk H = .ok (v, o, H') →
      c.Reachable pkt R C H'
  | decodeAny {R C H T datas pars outs props mem junk o v H'} : c.Reachable pkt R C H → c.AnyStreams T datas pars props →
      (R.fecV c.b).decode_streams_vertical datas pars props outs mem junk H = .ok (v, o, H') → c.Reachable pkt R C H'
  | decodeBlocksAny {R C H T bytes datas pars props missing wanted mem junk v o H'} : c.Reachable pkt R C H →
      bytes / c.w = T → c.AnyBlocks T datas pars props missing → c.k ≤ wanted.size →
      (∀ i, i < c.k → gt wanted i = true → ∃ d, gt datas i = some d ∧ T * c.w ≤ d.size) →
      (R.fecV c.b).decode_blocks_vertical datas pars props missing wanted bytes mem junk H = .ok (v, o, H') →
      c.Reachable pkt R C H'
  | sessions {R C H l C' H' run es} : c.Reachable pkt R C H → ValidSteps c.TaskOk 0 l →
      Session.run (R.fecV c.b) (l.map (Step.act c.sys c.k)) ⟨C, H, #[]⟩ = .ok (⟨C', H', run⟩, es) → c.Reachable pkt R C' H'

end Quad.Spec
