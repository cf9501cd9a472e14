import Verif.Model.FecGf2n
import Verif.Model.FftOther

/-!
# Model of src/fec_rs_gf2n_fft.h and src/fec_rs_gfp_fft.h

Both codes are non-systematic.  Only the functions on words exist in the code: `encode` and `decode` on
buffers are those of the base class, which do nothing for these codes.
-/

namespace Quad

/-- `CooleyTukey(gf, n, id)` (fft_ct.h:126-171): the factors are taken from position `id` on -/
def CooleyTukey.mkAt (F : GF) (b n id : Nat) (mem : Nat → Nat) : Res FT := do
  let fs ← Arith.get_prime_factors b n
  let w ← F.nthRoot n
  CooleyTukey.build F mem true (fs.drop id) n w

/-- `encode(Vector)` without post-processing (fec_rs_gf2n_fft.h:114-123, fec_rs_gfp_fft.h:178-179): the
words, extended by zeros to `n` elements, are transformed -/
def FecBase.transform (B : FecBase) (output words : Array Nat) : Res (Array Nat) :=
  B.fft.fft output (zeroExtended words B.n)

namespace RsGf2nFft

/-- the constructor of `RsGf2nFft<T>` (fec_base.h:297-316, fec_rs_gf2n_fft.h:50-102) with words of `b`
bits; `mem`, `junk` and `junk3` are the contents of uninitialised memory -/
def mkBase (b word_size n_data n_parities : Nat) (mem : Nat → Nat) (junk : Nat → Nat → Nat)
    (junk3 : Nat → Nat → Nat → Nat) : Res FecBase := do
  cassert (decide (word_size ≤ 16))
  let O ← BinExt.mk' b (8 * word_size) junk junk3
  let O ← O.init
  let F := O.gf
  let n ← F.codeLenHC (n_parities + n_data)
  let r ← F.nthRoot n
  let fft ← CooleyTukey.mk' F b n mem
  let len_2k ← F.codeLenHC (2 * n_data)
  let fft_2k ← CooleyTukey.mk' F b (wrap 32 len_2k) mem
  let inv_r ← F.inv r
  let inv_r_powers ← RsFnt.powers F inv_r (n_data + 1) mem
  let r_powers ← RsFnt.powers F r n mem
  pure { sys := false, word_size := word_size, n_data := n_data, n_parities := n_parities,
         code_len := n_data + n_parities, n_outputs := n_data + n_parities, pkt_size := 8, n := n, r := r, F := F,
         fft := fft, fft_2k := fft_2k, inv_r_powers := inv_r_powers, r_powers := r_powers }

/-- the virtual functions (fec_rs_gf2n_fft.h:104-138; `decode_prepare` does nothing) -/
def fec (B : FecBase) : Fec Ctx where
  base := B
  get_n_outputs := B.n
  encode output props _ words := do
    let output ← B.transform output words
    pure (output, props)
  init_context_dec := B.init_context_dec
  decode C output _ _ words := B.decode_apply C output words

end RsGf2nFft

namespace RsGfpFft

/-- the transform of length `len` with second argument `arg` (fec_rs_gfp_fft.h:124-139): that argument is
the length of the data for `Radix2`, an index in the list of factors for `CooleyTukey` -/
def mkFft (F : GF) (b len arg : Nat) (mem : Nat → Nat) : Res FT :=
  if Arith.is_power_of_2 len then do
    let R ← Radix2.mk' F len arg
    pure (R.ft 0)
  else CooleyTukey.mkAt F b len arg mem

/-- `gf_p` and `limit_value` of `init_gf` (fec_rs_gfp_fft.h:91-101) for words of `b` bits -/
def params (b word_size : Nat) : Res (Nat × Nat) :=
  if word_size < 4 then .ok (wrap b (2 ^ (8 * word_size) + 1), wrap b (2 ^ (8 * word_size)))
  else if word_size = 4 then .ok (wrap b 4294991873, wrap b 4294967296)
  else .error .assertFail

/-- the constructor of `RsGfpFft<T>` (fec_base.h:297-316, fec_rs_gfp_fft.h:80-157) for `T` of `b` bits and double size
`db`, and `limit_value`.  For `__uint128_t`, whose signed double size is not signed, it is right only for words of more than 4 bytes, which
stop in `params`. -/
def mkBase (b db word_size n_data n_parities : Nat) (mem : Nat → Nat) : Res (FecBase × Nat) := do
  let (gf_p, limit_value) ← params b word_size
  cassert (decide (gf_p ≥ limit_value))
  cassert (decide (gf_p / 2 < limit_value))
  let O ← RingModN.init ⟨b, db, true, gf_p⟩ 0
  let j ← Arith.jacobi O.root O.ring.card
  cassert (decide (j = -1))
  let F := O.gf
  let n ← F.codeLenHC (n_parities + n_data)
  let r ← F.nthRoot n
  let fft ← mkFft F b n 0 mem
  let len_2k ← F.codeLenHC (2 * n_data)
  let fft_2k ← mkFft F b (wrap 32 len_2k) (wrap 32 len_2k) mem
  let inv_r ← F.inv r
  let inv_r_powers ← RsFnt.powers F inv_r (n_data + 1) mem
  let r_powers ← RsFnt.powers F r n mem
  pure ({ sys := false, word_size := word_size, n_data := n_data, n_parities := n_parities,
          code_len := n_data + n_parities, n_outputs := n_data + n_parities, pkt_size := 8, n := n, r := r, F := F,
          fft := fft, fft_2k := fft_2k, inv_r_powers := inv_r_powers, r_powers := r_powers }, limit_value)

/-- `encode_post_process(Vector)` (fec_rs_gfp_fft.h:183-195) -/
def encode_post_process (B : FecBase) (limit_value : Nat) (output : Array Nat) (props : Array Properties) (offset : Nat) :
    Res (Array Nat × Array Properties) :=
  forN B.code_len (output, props) (fun i s => do
    let v ← rd s.1 i
    if v ≥ limit_value then do
      let P ← rd s.2 i
      let props ← wr s.2 i (P.add offset OOR_MARK)
      if limit_value = 0 then ub
      else do
        let output ← wr s.1 i (v % limit_value)
        pure (output, props)
    else pure s)

/-- `decode_prepare(Vector)` (fec_rs_gfp_fft.h:211-231) for words of `b` bits: the context and the words -/
def decode_prepare (B : FecBase) (b limit_value : Nat) (C : Ctx) (props : Array Properties) (offset : Nat)
    (words : Array Nat) : Res (Ctx × Array Nat) :=
  forN B.n_data (C, words) (fun i s => do
    let j ← rd s.1.fragments_ids i
    let P ← rd props j
    let idx ← rd s.1.props_indices j
    if P.is_marked idx offset then do
      let words ← (if P.marker idx = OOR_MARK then do
          let x ← rd s.2 i
          wr s.2 i (wrap b (x + limit_value))
        else pure s.2)
      let pi ← wr s.1.props_indices j (idx + 1)
      pure ({ s.1 with props_indices := pi }, words)
    else pure s)

/-- the virtual functions (fec_rs_gfp_fft.h:159-231) -/
def fec (b : Nat) (c : FecBase × Nat) : Fec Ctx where
  base := c.1
  get_n_outputs := c.1.n
  encode output props offset words := do
    let output ← c.1.transform output words
    encode_post_process c.1 c.2 output props offset
  init_context_dec := c.1.init_context_dec
  decode C output props offset words := do
    let (C, words) ← decode_prepare c.1 b c.2 C props offset words
    c.1.decode_apply C output words

end RsGfpFft
end Quad
