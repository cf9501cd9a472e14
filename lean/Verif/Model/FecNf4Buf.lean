import Verif.Model.FecNf4
import Verif.Model.Simd

/-!
# The code over packed elements of GF(65537) on packets (src/fec_rs_nf4.h)

The functions on `vec::Buffers<T>`; the heap is that of Model/Buffers.lean.
-/

namespace Quad

/-- An `RsNf4<T>` object for packets: what `FecCode<T>` holds, and `ngff4` (fec_rs_nf4.h:49-75) -/
structure RsNf4Obj where
  code : FecB
  N : NF4

namespace RsNf4Obj

/-- The vectorised functions of `NF4<T>` exist for `__uint128_t` only (gf_nf4.cpp:40-100); `reg` is the size of the registers of
the build and `hi` what the upper half of a 32-byte register holds after a 16-byte load -/
def nf4Simd (b : Nat) (reg : Option Nat) (hi : Nat → Nat) : Option (Nat × (Nat → Nat)) :=
  if b = 128 then reg.map (fun R => (R, hi)) else none

/-- Constructor (fec_rs_nf4.h:49-119), `T` of `b` bits, in the build `reg`: the members of the word-level object, and its transforms on
packets of `pkt_size` words (fec_rs_nf4.h:89-95) -/
def mk' (b : Nat) (reg : Option Nat) (hi : Nat → Nat) (word_size n_data n_parities pkt_size : Nat) (mem : Nat → Nat) : Res RsNf4Obj := do
  let c ← RsNf4.mkCode b (nf4Simd b reg hi) word_size n_data n_parities pkt_size mem
  let m ← Arith.ceil2 32 n_data
  let R ← Radix2.mk' c.base.F c.base.n m
  let len_2k ← c.base.F.codeLenHC (2 * n_data)
  let R2 ← Radix2.mk' c.base.F len_2k len_2k
  let bd := Build.of reg b
  pure ⟨⟨c.base, bd, bd.fth R pkt_size, bd.fth R2 pkt_size, default⟩, c.N⟩

variable (R : RsNf4Obj)

/-- the loops applying `f` to every word of the first `count` chunks (fec_rs_nf4.h:261-266, 326-331) -/
def mapChunks (f : Nat → Nat) (count : Nat) (B : Bufs) (H : Heap) : Res Heap :=
  forN count H (fun i H => do
    let chunk ← B.get i
    forN R.code.base.pkt_size H (fun j H => do
      let x ← Heap.rdEl H chunk j
      Heap.wrEl H chunk j (f x)))

/-- the loop of `encode_post_process` on one chunk (fec_rs_nf4.h:280-287) -/
def postLoop (chunk frag_id size offset : Nat) (props : Array Properties) (H : Heap) : Res (Array Properties × Heap) :=
  forN size (props, H) (fun j s => do
    let x ← Heap.rdEl s.2 chunk j
    let t := R.N.unpack x
    let props ← if t.2 > 0 then do
        let P ← rd s.1 frag_id
        wr s.1 frag_id (P.add (offset + j) t.2)
      else pure s.1
    let H ← Heap.wrEl s.2 chunk j t.1
    pure (props, H))

/-- `encode_post_process(Buffers)` (fec_rs_nf4.h:271-289) -/
def encode_post_process (output : Bufs) (props : Array Properties) (offset : Nat) (H : Heap) : Res (Array Properties × Heap) :=
  forN R.code.base.code_len (props, H) (fun i s => do
    let chunk ← output.get i
    R.postLoop chunk i output.size offset s.1 s.2)

/-- `encode(Buffers)` (fec_rs_nf4.h:255-269): the words of the caller are packed in place; there is no context for encoding -/
def encode (enc : CtxB) (output : Bufs) (props : Array Properties) (offset : Nat) (words : Bufs) (H : Heap) :
    Res (CtxB × Heap × Array Properties) := do
  let H ← R.mapChunks R.N.pack R.code.base.n_data words H
  let H ← R.code.fft.fft output.mem words.mem H
  let (props, H) ← R.encode_post_process output props offset H
  pure (enc, H, props)

/-- `init_context_dec` with `size != 0` (fec_rs_nf4.h:176-216) -/
def init_context_dec (fragments_ids : Array Nat) (input_props : Array Properties) (size : Nat) (output : Bufs)
    (mem : Nat → Nat) (junk : Nat → Nat → Nat) (H : Heap) : Res (Heap × CtxB × Array Properties) := do
  let vx ← forN R.code.base.n_data (fresh mem R.code.base.n_data) (fun i vx => do
    let j ← rd fragments_ids i
    wr vx i (R.N.exp R.code.base.r (R.N.replicate j)))
  CtxB.mk' R.code.base.F R.code.base.fft (some R.code.base.fft_2k) fragments_ids input_props vx R.code.base.n_data R.code.base.n none
    size output mem junk H

/-- the loop of `decode_prepare` on one chunk (fec_rs_nf4.h:303-316): the indices of the next marks and the heap -/
def prepLoop (props : Array Properties) (chunk frag_id offset : Nat) (pi : Array Nat) (H : Heap) : Res (Array Nat × Heap) :=
  forN R.code.base.pkt_size (pi, H) (fun j s => do
    let P ← rd props frag_id
    let idx ← rd s.1 frag_id
    let x ← Heap.rdEl s.2 chunk j
    if P.is_marked idx (offset + j) then do
      let H ← Heap.wrEl s.2 chunk j (R.N.packFlag x (P.marker idx))
      let pi ← wr s.1 frag_id (idx + 1)
      pure (pi, H)
    else do
      let H ← Heap.wrEl s.2 chunk j (R.N.pack x)
      pure (s.1, H))

/-- `decode_prepare(Buffers)` (fec_rs_nf4.h:291-317) -/
def decode_prepare (C : CtxB) (props : Array Properties) (offset : Nat) (words : Bufs) (H : Heap) : Res (CtxB × Heap) := do
  let (pi, H) ← forN R.code.base.n_data (C.props_indices, H) (fun i s => do
    let frag_id ← rd C.fragments_ids i
    let chunk ← words.get i
    R.prepLoop props chunk frag_id offset s.1 s.2)
  pure ({ C with props_indices := pi }, H)

/-- `decode_apply(Buffers)` (fec_rs_nf4.h:319-332) -/
def decode_apply (C : CtxB) (output words : Bufs) (H : Heap) : Res (CtxB × Heap) := do
  let (C, H) ← R.code.decode_apply false C output words H
  let H ← R.mapChunks (fun x => (R.N.unpack x).1) R.code.base.n_data output H
  pure (C, H)

/-- `FecCode::decode(Buffers)` (fec_base.h:1335-1356), with the functions above; the code is not systematic -/
def decode (C : CtxB) (output : Bufs) (props : Array Properties) (offset : Nat) (words : Bufs) (H : Heap) : Res (CtxB × Heap) := do
  let (C, H) ← R.decode_prepare C props offset words H
  R.decode_apply C output words H

/-- the object as a `FecCode<T>`; `get_n_outputs` is the code length (fec_rs_nf4.h:116-119) -/
def fecV (b : Nat) : FecV where
  base := R.code.base
  b := b
  get_n_outputs := R.code.base.n
  encode := R.encode
  init_context_dec := R.init_context_dec
  decode := R.decode

end RsNf4Obj
end Quad
