import Verif.Model.Fec
import Verif.Model.NF4

/-!
# The Reed-Solomon code over packed elements of GF(65537) (src/fec_rs_nf4.h)

Word-level functions.
-/

namespace Quad.RsNf4

/-- an `RsNf4<T>` object: the members of the base class, and `ngff4` -/
structure Code where
  base : FecBase
  N : NF4

/-- Constructor (fec_rs_nf4.h:49-63, 65-119, fec_base.h:297-316); `T` has `b` bits. -/
def mkCode (b : Nat) (simd : Option (Nat × (Nat → Nat))) (word_size n_data n_parities pkt_size : Nat) (mem : Nat → Nat) : Res Code := do
  cassert (decide (word_size ≥ 2))
  cassert (decide (word_size ≤ 8))
  let gf_n := word_size / 2
  let N ← NF4.mk' b gf_n simd
  let O ← N.init
  let F := O.gf
  let n ← N.sub_field.gf.codeLenHC (n_parities + n_data)
  let r ← F.nthRoot n
  let m ← Arith.ceil2 32 n_data
  let fft ← Radix2.mk' F n m
  let len_2k ← F.codeLenHC (2 * n_data)
  let fft_2k ← Radix2.mk' F len_2k len_2k
  let inv_r ← F.inv r
  let inv_r_powers ← RsFnt.powers F inv_r (n_data + 1) mem
  let r_powers ← RsFnt.powers F r n mem
  pure { N := N
         base := { sys := false, word_size := word_size, n_data := n_data, n_parities := n_parities,
                   code_len := n_data + n_parities, n_outputs := n_data + n_parities,
                   pkt_size := pkt_size, n := n, r := r, F := F, fft := fft.ft pkt_size, fft_2k := fft_2k.ft pkt_size,
                   inv_r_powers := inv_r_powers, r_powers := r_powers } }

variable (c : Code)

/-- packing of the words to encode (fec_rs_nf4.h:135-137) -/
def packWords (words : Array Nat) : Res (Array Nat) :=
  forN c.base.n_data words (fun i words => do
    let x ← rd words i
    wr words i (c.N.pack x))

/-- `encode_post_process(Vector)` (fec_rs_nf4.h:143-162) -/
def encode_post_process (output : Array Nat) (props : Array Properties) (offset : Nat) : Res (Array Nat × Array Properties) :=
  forN c.base.code_len (output, props) (fun i s => do
    let val ← rd s.1 i
    let t := c.N.unpack val
    let props ← if t.2 > 0 then do
        let P ← rd s.2 i
        wr s.2 i (P.add offset t.2)
      else pure s.2
    let output ← wr s.1 i t.1
    pure (output, props))

/-- `encode(Vector)` (fec_rs_nf4.h:128-141) -/
def encode (output : Array Nat) (props : Array Properties) (offset : Nat) (words : Array Nat) :
    Res (Array Nat × Array Properties) := do
  let words ← packWords c words
  let output ← c.base.fft.fft output words
  encode_post_process c output props offset

/-- `init_context_dec` (fec_rs_nf4.h:176-216), vector case, for a code whose tables are initialised -/
def init_context_dec (fragments_ids : Array Nat) (input_props : Array Properties) (mem : Nat → Nat) :
    Res (Ctx × Array Properties) := do
  let vx ← forN c.base.n_data (fresh mem c.base.n_data) (fun i vx => do
    let j ← rd fragments_ids i
    wr vx i (c.N.exp c.base.r (c.N.replicate j)))
  Ctx.mk' c.base.F c.base.fft (some c.base.fft_2k) fragments_ids input_props vx c.base.n_data c.base.n none mem

/-- `decode_prepare(Vector)` (fec_rs_nf4.h:218-238) -/
def decode_prepare (C : Ctx) (props : Array Properties) (offset : Nat) (words : Array Nat) : Res (Ctx × Array Nat) :=
  forN c.base.n_data (C, words) (fun i s => do
    let j ← rd s.1.fragments_ids i
    let P ← rd props j
    let idx ← rd s.1.props_indices j
    let x ← rd s.2 i
    if P.is_marked idx offset then do
      let pi ← wr s.1.props_indices j (idx + 1)
      let words ← wr s.2 i (c.N.packFlag x (P.marker idx))
      pure ({ s.1 with props_indices := pi }, words)
    else do
      let words ← wr s.2 i (c.N.pack x)
      pure (s.1, words))

/-- unpacking of the decoded words (fec_rs_nf4.h:248-250) -/
def unpackWords (output : Array Nat) : Res (Array Nat) :=
  forN c.base.n_data output (fun i output => do
    let x ← rd output i
    wr output i (c.N.unpack x).1)

/-- `decode_apply(Vector)` (fec_rs_nf4.h:240-251) -/
def decode_apply (C : Ctx) (output words : Array Nat) : Res (Ctx × Array Nat) := do
  let (C, output) ← c.base.decode_apply C output words
  let output ← unpackWords c output
  pure (C, output)

/-- `FecCode::decode` (fec_base.h:739-752) -/
def decode (C : Ctx) (output : Array Nat) (props : Array Properties) (offset : Nat) (words : Array Nat) : Res (Ctx × Array Nat) := do
  let (C, words) ← decode_prepare c C props offset words
  decode_apply c C output words

/-- the object for the word-level functions -/
def fec : Fec Ctx where
  base := c.base
  get_n_outputs := c.base.n
  encode := encode c
  init_context_dec := init_context_dec c
  decode := decode c

end Quad.RsNf4
