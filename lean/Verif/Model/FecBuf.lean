import Verif.Model.Buffers

/-!
# Model of the packet-level part of src/fec_base.h, src/fec_context.h and
src/fec_rs_fnt.h, and of src/vec_cast.h

Buffers of words live in the heap of Model/Buffers.lean.  Buffers of bytes
(`words_char`, `output_char`) are never shared and are plain arrays.
`junk` is the arbitrary contents of newly allocated blocks, `mem` that of newly
allocated vectors.  Statistics are not modelled.
-/

namespace Quad

/-- The transforms of `fft::FourierTransform<T>` on buffers (fft_base.h:62-73):
pointers of the output and of the input.  The inverse transforms may reorder the
pointers of the output object, and return them. -/
structure FTH where
  fft : Array Nat → Array Nat → Heap → Res Heap
  fft_inv : Array Nat → Array Nat → Heap → Res (Array Nat × Heap)
  ifft : Array Nat → Array Nat → Heap → Res (Array Nat × Heap)

/-- a `Radix2<T>` object with packets of `pkt` words -/
def Radix2.fth (R : Radix2) (pkt : Nat) : FTH where
  fft := R.fftH pkt
  fft_inv := R.fftInvH pkt
  ifft := R.ifftH pkt

/-- `DecodeContext<T>` with `size != 0` (fec_context.h:276-319) -/
structure CtxB where
  props_indices : Array Nat
  fragments_ids : Array Nat
  len_2k : Nat
  A_fft_2k : Array Nat
  inv_A_i : Array Nat
  buf1_2k : Bufs
  bNmK : Bufs
  buf1_k : Bufs
  buf1_n : Bufs
  buf_max_n_2k : Bufs
  buf2_n : Bufs
  buf2_2k : Bufs
  deriving Inhabited

/-- constructor of the context with `size != 0` (fec_context.h:66-142): the
vectors are those `init` computes (fec_context.h:232-274, `Ctx.mk'`) -/
def CtxB.mk' (F : GF) (fft : FT) (fft_2k : Option FT) (fragments_ids : Array Nat) (input_props : Array Properties)
    (vx : Array Nat) (k n : Nat) (vx_zero : Option Nat) (size : Nat) (output : Bufs) (mem : Nat → Nat)
    (junk : Nat → Nat → Nat) (H : Heap) : Res (Heap × CtxB × Array Properties) := do
  let (C, props) ← Ctx.mk' F fft fft_2k fragments_ids input_props vx k n vx_zero mem
  let max_n_2k := if n > C.len_2k then n else C.len_2k
  let (H, buf1_2k) := Bufs.full junk H C.len_2k size
  let (H, bNmK) := Bufs.full junk H (max_n_2k - k) size
  let (H, buf1_k) ← Bufs.slice H buf1_2k 0 k
  let (H, buf1_n) ← Bufs.shuffle H buf1_k fragments_ids n
  let buf_max ← Bufs.concat output bNmK
  let (H, buf2_n) ← Bufs.slice H buf_max 0 n
  let (H, buf2_2k) ← Bufs.slice H buf_max 0 C.len_2k
  pure (H, { props_indices := C.props_indices, fragments_ids := C.fragments_ids, len_2k := C.len_2k,
             A_fft_2k := C.A_fft_2k, inv_A_i := C.inv_A_i, buf1_2k := buf1_2k, bNmK := bNmK, buf1_k := buf1_k,
             buf1_n := buf1_n, buf_max_n_2k := buf_max, buf2_n := buf2_n, buf2_2k := buf2_2k }, props)

/-! ### scalar and vectorised builds -/

namespace RsFntObj

/-- the inner loop of `encode_post_process(Buffers)` (fec_rs_fnt.h:261-268) -/
def markLoop (size thres chunk offset : Nat) (H : Heap) (P : Properties) : Res Properties :=
  forN size P (fun j P => do
    let v ← Heap.rdEl H chunk j
    if v &&& thres ≠ 0 then pure (P.add (offset + j) OOR_MARK) else pure P)

/-- `encode_post_process(Buffers)` (fec_rs_fnt.h:253-270) -/
def encode_post_process (B : FecBase) (output : Bufs) (props : Array Properties) (offset : Nat) (H : Heap) :
    Res (Array Properties) :=
  let thres := B.F.card - 1
  forN B.n_outputs props (fun i props => do
    let chunk ← output.get i
    let P ← rd props i
    let P ← markLoop output.size thres chunk offset H P
    wr props i P)

end RsFntObj

/-- The member functions on buffers that have a scalar version and, with
`QUADIRON_USE_SIMD`, specialisations for `uint16_t` and `uint32_t` (gf_ring.cpp,
fft_2n.cpp, fec_vectorisation.cpp): a build of the library has either. -/
structure Build where
  /-- `Radix2<T>` for packets of a given size -/
  fth : Radix2 → Nat → FTH
  /-- `mul_vec_to_vecp` -/
  mulv : GF → Array Nat → Bufs → Bufs → Heap → Res Heap
  /-- `neg(Buffers)` -/
  negv : GF → Bufs → Heap → Res Heap
  /-- `RsFnt<T>::encode_post_process(Buffers)` -/
  post : FecBase → Bufs → Array Properties → Nat → Heap → Res (Array Properties)

/-- the scalar build -/
def Build.scalar : Build where
  fth := Radix2.fth
  mulv := BufOps.mul_vec_to_vecp
  negv := BufOps.negBufs
  post := RsFntObj.encode_post_process

/-- members of `FecCode<T>` the packet functions use, besides those of `FecBase`
(fec_base.h:241-252); `dec_inter_codeword` is only used by systematic codes -/
structure FecB where
  base : FecBase
  /-- the functions the compiler selects -/
  build : Build
  fft : FTH
  fft_2k : FTH
  dec_inter_codeword : Bufs

namespace FecB
variable (B : FecB)

/-- `init_context_dec` with `size != 0` (fec_base.h:757-790) -/
def init_context_dec (fragments_ids : Array Nat) (input_props : Array Properties) (size : Nat) (output : Bufs)
    (mem : Nat → Nat) (junk : Nat → Nat → Nat) (H : Heap) : Res (Heap × CtxB × Array Properties) := do
  let vx ← forN B.base.n_data (fresh mem B.base.n_data) (fun i vx => do
    let j ← rd fragments_ids i
    let x ← rd B.base.r_powers j
    wr vx i x)
  CtxB.mk' B.base.F B.base.fft (some B.base.fft_2k) fragments_ids input_props vx B.base.n_data B.base.n none size
    output mem junk H

/-- the loop over the marked symbols of one fragment (fec_base.h:1382-1402): the
index of the next mark and the heap.  The fuel is more than the number of marks. -/
def prepareLoop (P : Properties) (offset offset_max thres chunk : Nat) : Nat → Nat → Heap → Res (Nat × Heap)
  | 0, _, _ => .error .diverges
  | fuel + 1, idx, H =>
    if P.in_range idx offset offset_max then do
      let j := P.location idx - offset
      let H ← (if P.marker idx = OOR_MARK then Heap.wrEl H chunk j thres else pure H)
      prepareLoop P offset offset_max thres chunk fuel (idx + 1) H
    else .ok (idx, H)

/-- `decode_prepare(Buffers)` (fec_base.h:1360-1404) -/
def decode_prepare (C : CtxB) (props : Array Properties) (offset : Nat) (words : Bufs) (H : Heap) :
    Res (CtxB × Heap) :=
  forN B.base.n_data (C, H) (fun i s => do
    let frag_id ← rd s.1.fragments_ids i
    if B.base.sys = true ∧ frag_id < B.base.n_data then pure s
    else do
      let chunk ← words.get i
      let frag_id := if B.base.sys then frag_id - B.base.n_data else frag_id
      let P ← rd props frag_id
      let idx ← rd s.1.props_indices frag_id
      let (idx, H) ← prepareLoop P offset (offset + B.base.pkt_size) (B.base.F.card - 1) chunk (P.props.length + 1) idx s.2
      let pi ← wr s.1.props_indices frag_id idx
      pure ({ s.1 with props_indices := pi }, H))

/-- `decode_apply(Buffers)` (fec_base.h:1417-1448), and with `short` the
function `decode_data` of systematic FNT codes (fec_rs_fnt.h:204-234), which
takes `buf1_k` as input of the inverse transform -/
def decode_apply (short : Bool) (C : CtxB) (output words : Bufs) (H : Heap) : Res (CtxB × Heap) := do
  let H ← B.build.mulv B.base.F C.inv_A_i words C.buf1_k H
  let (m, H) ← B.fft.fft_inv C.buf2_n.mem (if short then C.buf1_k.mem else C.buf1_n.mem) H
  let C := { C with buf2_n := { C.buf2_n with mem := m } }
  let H ← B.fft_2k.fft C.buf1_2k.mem output.mem H
  let H ← B.build.mulv B.base.F C.A_fft_2k C.buf1_2k C.buf1_2k H
  let (m, H) ← B.fft_2k.ifft C.buf2_2k.mem C.buf1_2k.mem H
  let C := { C with buf2_2k := { C.buf2_2k with mem := m } }
  let H ← B.build.negv B.base.F output H
  pure (C, H)

/-- `decode(Buffers)` (fec_base.h:1335-1356) -/
def decode (C : CtxB) (output : Bufs) (props : Array Properties) (offset : Nat) (words : Bufs) (H : Heap) :
    Res (CtxB × Heap) := do
  let (C, H) ← B.decode_prepare C props offset words H
  let (C, H) ← B.decode_apply false C output words H
  if B.base.sys then do
    let H ← B.fft.fft B.dec_inter_codeword.mem output.mem H
    let H ← forN B.base.n_data H (fun i H => do
      let s ← B.dec_inter_codeword.get i
      Bufs.copyAt H output i s)
    pure (C, H)
  else pure (C, H)

end FecB

/-! ### vec_cast.h -/

/-- the words of the byte buffer `src`: `reinterpret_cast<Tw*>(src)[0 .. size-1]`
with words of `w` bytes, little endian, copied to the block `dst`
(vec_cast.h:50-55) -/
def packBlock (w size : Nat) (src : Array Nat) (dst : Nat) (H : Heap) : Res Heap :=
  forN size H (fun j H =>
    if (j + 1) * w ≤ src.size then
      Heap.wrEl H dst j (leVal ((src.extract (j * w) ((j + 1) * w)).toList))
    else ub)

/-- `pack<Ts, Td>` with one-byte `Ts` and `Td` of `b` bits (vec_cast.h:74-103):
other word sizes are silently ignored -/
def pack (b : Nat) (src : Array (Array Nat)) (dest : Array Nat) (n size w : Nat) (H : Heap) : Res Heap := do
  cassert (decide (8 * w ≤ b))
  if w = 1 ∨ w = 2 ∨ w = 4 ∨ w = 8 ∨ w = 16 then
    forN n H (fun i H => do
      let s ← rd src i
      let d ← rd dest i
      packBlock w size s d H)
  else pure H

/-- the `w` low bytes of the `size` words of block `src`, written over the byte
buffer `dst` (vec_cast.h:105-117) -/
def unpackBlock (w size : Nat) (H : Heap) (src : Nat) (dst : Array Nat) : Res (Array Nat) :=
  forN size dst (fun j dst => do
    let x ← Heap.rdEl H src j
    forN w dst (fun t dst => wr dst (j * w + t) (x / 256 ^ t % 256)))

/-- `unpack<Ts, Td>` with `Ts` of `b` bits and one-byte `Td` (vec_cast.h:133-163) -/
def unpack (b : Nat) (src : Array Nat) (dest : Array (Array Nat)) (n size w : Nat) (H : Heap) :
    Res (Array (Array Nat)) := do
  cassert (decide (8 * w ≤ b))
  if w = 1 ∨ w = 2 ∨ w = 4 ∨ w = 8 ∨ w = 16 then
    forN n dest (fun i dest => do
      let s ← rd src i
      let d ← rd dest i
      let d ← unpackBlock w size H s d
      wr dest i d)
  else pure dest

/-! ### streams and blocks, packet by packet -/

/-- A `FecCode<T>` object for packets: `T` has `b` bits, and the virtual
functions the stream and block functions of the base class call.  `encode` takes
and returns the context systematic codes keep for encoding. -/
structure FecV where
  base : FecBase
  b : Nat
  /-- `get_n_outputs()` -/
  get_n_outputs : Nat
  /-- `encode(output, props, offset, words)` -/
  encode : CtxB → Bufs → Array Properties → Nat → Bufs → Heap → Res (CtxB × Heap × Array Properties)
  /-- `init_context_dec(fragments_ids, props, size, output)` -/
  init_context_dec : Array Nat → Array Properties → Nat → Bufs → (Nat → Nat) → (Nat → Nat → Nat) → Heap →
    Res (Heap × CtxB × Array Properties)
  /-- `decode(context, output, props, offset, words)` -/
  decode : CtxB → Bufs → Array Properties → Nat → Bufs → Heap → Res (CtxB × Heap)

/-- `encode(Buffers)` of the base class (fec_base.h:138-142), which `RsGf2n`, `RsGf2nFft`, `RsGf2nFftAdd` and `RsGfpFft` do not
override: its body is empty -/
def FecV.defaultEncode (enc : CtxB) (_output : Bufs) (props : Array Properties) (_offset : Nat) (_words : Bufs) (H : Heap) :
    Res (CtxB × Heap × Array Properties) := .ok (enc, H, props)

/-- `buf_size` (fec_base.h:310) -/
def FecV.buf_size (E : FecV) : Nat := E.base.pkt_size * E.base.word_size

/-- `read_pkt` (fec_base.h:386-390) and the zeroing of the trailing part
(fec_base.h:504-513): the packet, the rest of the stream and, when the read
failed, `gcount()` -/
def readPkt (buf_size : Nat) (s : List Nat) : Array Nat × List Nat × Option Nat :=
  if s.length < buf_size then ((s ++ List.replicate (buf_size - s.length) 0).toArray, [], some s.length)
  else ((s.take buf_size).toArray, s.drop buf_size, none)

/-- reading one packet from each of the streams `idx 0 .. idx (count-1)` into
`words_char` from index `dst` (fec_base.h:503-515, 987-1016).  State: streams,
`words_char`, `read_bytes` and `cont`. -/
def readPkts (buf_size count dst : Nat) (idx : Nat → Res Nat)
    (s : Array (Option (List Nat)) × Array (Array Nat) × Nat × Bool) :
    Res (Array (Option (List Nat)) × Array (Array Nat) × Nat × Bool) :=
  forN count s (fun i s => do
    let j ← idx i
    let st ← rd s.1 j
    match st with
    | none => ub
    | some st => do
      let r := readPkt buf_size st
      let wc ← wr s.2.1 (dst + i) r.1
      let streams ← wr s.1 j (some r.2.1)
      match r.2.2 with
      | some g => pure (streams, wc, g, false)
      | none => pure (streams, wc, s.2.2.1, s.2.2.2))

/-- `write_pkt` of the first `bytes` bytes to each output stream that exists
(fec_base.h:535-538, 1039-1044) -/
def writePkts (n bytes : Nat) (out_char : Array (Array Nat)) (outs : Array (Option (List Nat))) :
    Res (Array (Option (List Nat))) :=
  forN n outs (fun i outs => do
    let o ← rd outs i
    match o with
    | none => pure outs
    | some s => do
      let c ← rd out_char i
      if bytes ≤ c.size then wr outs i (some (s ++ (c.extract 0 bytes).toList)) else ub)

/-- state of the encoding loops: context for encoding, heap, `words_char`,
`output_char` and properties -/
structure EncSt where
  enc : CtxB
  H : Heap
  words_char : Array (Array Nat)
  out_char : Array (Array Nat)
  props : Array Properties

/-- `pack`, `encode`, `unpack` (fec_base.h:521-533, 1117-1133) -/
def FecV.encStep (E : FecV) (words output : Bufs) (offset : Nat) (s : EncSt) : Res EncSt := do
  let H ← pack E.b s.words_char words.mem E.base.n_data E.base.pkt_size E.base.word_size s.H
  let (enc, H, props) ← E.encode s.enc output s.props offset words H
  let oc ← unpack E.b output.mem s.out_char E.get_n_outputs E.base.pkt_size E.base.word_size H
  pure { s with enc := enc, H := H, out_char := oc, props := props }

/-- the loop of `encode_streams_vertical` (fec_base.h:502-541) -/
def FecV.encLoop (E : FecV) (words output : Bufs) : Nat → Array (Option (List Nat)) → Array (Option (List Nat)) →
    Nat → Nat → EncSt → Res (Array (Option (List Nat)) × EncSt)
  | 0, _, _, _, _, _ => .error .diverges
  | fuel + 1, ins, outs, read_bytes, offset, s => do
    let (ins, wc, read_bytes, cont) ← readPkts E.buf_size E.base.n_data 0 (fun i => .ok i)
      (ins, s.words_char, read_bytes, true)
    if read_bytes = 0 then pure (outs, { s with words_char := wc })
    else do
      let s ← E.encStep words output offset { s with words_char := wc }
      let outs ← writePkts E.base.n_outputs read_bytes s.out_char outs
      if cont then E.encLoop words output fuel ins outs read_bytes (offset + E.base.pkt_size) s
      else pure (outs, s)

/-- newly allocated byte buffers (`vec::Buffers<char>(n, buf_size)`) -/
def freshChars (junk : Nat → Nat → Nat) (n size : Nat) : Array (Array Nat) :=
  Array.ofFn (fun i : Fin n => fresh (junk i) size)

/-- `encode_streams_vertical` (fec_base.h:462-542) with the context `enc` for
encoding: what was written to the output streams, the properties, the context and
the heap -/
def FecV.encode_streams_vertical (E : FecV) (enc : CtxB) (input_data : Array (List Nat)) (outs : Array (List Nat))
    (props : Array Properties) (junk : Nat → Nat → Nat) (H : Heap) :
    Res (Array (Option (List Nat)) × Array Properties × CtxB × Heap) := do
  cassert (decide (input_data.size = E.base.n_data))
  cassert (decide (outs.size = E.base.n_outputs))
  cassert (decide (props.size = E.base.n_outputs))
  let props := props.map Properties.clear
  let (H, words) := Bufs.full junk H E.base.n_data E.base.pkt_size
  let (H, output) := Bufs.full junk H E.get_n_outputs E.base.pkt_size
  let (outs, s) ← E.encLoop words output ((gt input_data 0).length + 2) (input_data.map some) (outs.map some) E.buf_size 0
    ⟨enc, H, freshChars junk E.base.n_data E.buf_size, freshChars junk E.get_n_outputs E.buf_size, props⟩
  pure (outs, s.props, s.enc, s.H)

/-- state of the decoding loops -/
structure DecSt where
  C : CtxB
  H : Heap
  words_char : Array (Array Nat)
  out_char : Array (Array Nat)

/-- `pack`, `decode`, `unpack` (fec_base.h:1022-1037, 1288-1304) -/
def FecV.decStep (E : FecV) (words output : Bufs) (props : Array Properties) (offset : Nat) (s : DecSt) :
    Res DecSt := do
  let H ← pack E.b s.words_char words.mem E.base.n_data E.base.pkt_size E.base.word_size s.H
  let (C, H) ← E.decode s.C output props offset words H
  let oc ← unpack E.b output.mem s.out_char E.base.n_data E.base.pkt_size E.base.word_size H
  pure { s with C := C, H := H, out_char := oc }

/-- the loop of `decode_streams_vertical` (fec_base.h:985-1046) -/
def FecV.decLoop (E : FecV) (words output : Bufs) (ids apar : Array Nat) (nd : Nat) (props : Array Properties) :
    Nat → Array (Option (List Nat)) → Array (Option (List Nat)) → Array (Option (List Nat)) → Nat → Nat → DecSt →
    Res (Array (Option (List Nat)) × Heap)
  | 0, _, _, _, _, _, _ => .error .diverges
  | fuel + 1, datas, pars, outs, read_bytes, offset, s => do
    let (datas, wc, read_bytes, cont) ←
      (if E.base.sys then
        readPkts E.buf_size nd 0 (fun i => rd ids i) (datas, s.words_char, read_bytes, true)
      else pure (datas, s.words_char, read_bytes, true))
    let (pars, wc, read_bytes, cont) ←
      readPkts E.buf_size (E.base.n_data - nd) nd (fun i => rd apar i) (pars, wc, read_bytes, cont)
    if read_bytes = 0 then pure (outs, s.H)
    else do
      let s ← E.decStep words output props offset { s with words_char := wc }
      let outs ← writePkts E.base.n_data read_bytes s.out_char outs
      if cont then E.decLoop words output ids apar nd props fuel datas pars outs read_bytes (offset + E.base.pkt_size) s
      else pure (outs, s.H)

/-- `decode_streams_vertical` (fec_base.h:897-1049): the returned value, what
was written to the output streams and the heap.  `fragments_ids.sort()` (fec_base.h:955)
leaves the list unchanged, because it is built in increasing order. -/
def FecV.decode_streams_vertical (E : FecV) (datas pars : Array (Option (List Nat))) (props : Array Properties)
    (outs : Array (Option (List Nat))) (mem : Nat → Nat) (junk : Nat → Nat → Nat) (H : Heap) :
    Res (Bool × Array (Option (List Nat)) × Heap) := do
  let B := E.base
  if B.sys then cassert (decide (datas.size = B.n_data)) else pure ()
  cassert (decide (pars.size = B.n_outputs))
  cassert (decide (props.size = B.n_outputs))
  cassert (decide (outs.size = B.n_data))
  let sel ← B.selectFragments (datas.map Option.isSome) (pars.map Option.isSome) mem
  match sel with
  | .allData => pure (true, outs, H)
  | .tooFew => pure (false, outs, H)
  | .use ids apar nd => do
    let ids := (ids.toList.mergeSort (fun x y => decide (x ≤ y))).toArray
    let (H, words) := Bufs.full junk H B.n_data B.pkt_size
    let (H, output) := Bufs.full junk H B.n_data B.pkt_size
    let (H, C, props) ← E.init_context_dec ids props B.pkt_size output mem junk H
    let (outs, H) ← E.decLoop words output ids apar nd props (maxLen datas + maxLen pars + 2) datas pars outs E.buf_size 0
      ⟨C, H, freshChars junk B.n_data E.buf_size, freshChars junk B.n_data E.buf_size⟩
    pure (true, outs, H)

/-- `memcpy(dst, src + off, len)` at the start of a byte buffer -/
def copyBytes (dst src : Array Nat) (off len : Nat) : Res (Array Nat) :=
  if off + len ≤ src.size ∧ len ≤ dst.size then .ok (src.extract off (off + len) ++ dst.extract len dst.size) else ub

/-- `memset(dst + from, 0, dst.size - from)` -/
def zeroTail (dst : Array Nat) (n : Nat) : Array Nat := dst.extract 0 n ++ Array.replicate (dst.size - n) 0

/-- `memcpy(dst + off, src, len)` into a caller's block -/
def storeBytes (dst src : Array Nat) (off len : Nat) : Res (Array Nat) :=
  if off + len ≤ dst.size ∧ len ≤ src.size then
    .ok (dst.extract 0 off ++ src.extract 0 len ++ dst.extract (off + len) dst.size)
  else ub

/-- copying `copy_size` words of the blocks `idx i` to `words_char`
(fec_base.h:1098-1103, 1254-1271); a null block is undefined behaviour -/
def readBlocks (count dst : Nat) (idx : Nat → Res Nat) (blocks : Array (Option (Array Nat))) (off len : Nat)
    (wc : Array (Array Nat)) : Res (Array (Array Nat)) :=
  forN count wc (fun i wc => do
    let j ← idx i
    let s ← rd blocks j
    match s with
    | none => ub
    | some s => do
      let d ← rd wc (dst + i)
      let d ← copyBytes d s off len
      wr wc (dst + i) d)

/-- copying the wanted results to the caller's blocks (fec_base.h:1140-1147,
1306-1313) -/
def writeBlocks (n : Nat) (wanted : Array Bool) (off len : Nat) (oc : Array (Array Nat))
    (blocks : Array (Option (Array Nat))) : Res (Array (Option (Array Nat))) :=
  forN n blocks (fun i blocks => do
    let wnt ← rd wanted i
    if wnt then do
      let d ← rd blocks i
      match d with
      | none => ub
      | some d => do
        let s ← rd oc i
        let d ← storeBytes d s off len
        wr blocks i (some d)
    else pure blocks)

/-- a division of the time counted (fec_base.h:1135); the quotient is a statistic and is not kept.  (The division by `buf_size`
in fec_base.h:530 comes after the test of `read_bytes`, which is 0 if `buf_size` is.) -/
def statDiv (d : Nat) : Res Unit := if d = 0 then ub else ok ()

/-- the loop of `encode_blocks_vertical` (fec_base.h:1094-1149) -/
def FecV.encBlockLoop (E : FecV) (words output : Bufs) (datas : Array (Option (Array Nat))) (wanted : Array Bool)
    (block_size : Nat) : Nat → Array (Option (Array Nat)) → Nat → EncSt →
    Res (Array (Option (Array Nat)) × EncSt)
  | 0, _, _, _ => .error .diverges
  | fuel + 1, pars, offset, s =>
    if offset < block_size then do
      let copy_size := min E.base.pkt_size (block_size - offset)
      let w := E.base.word_size
      let wc ← readBlocks E.base.n_data 0 (fun i => .ok i) datas (offset * w) (copy_size * w) s.words_char
      let wc := if copy_size < E.base.pkt_size then wc.map (fun c => zeroTail c (copy_size * w)) else wc
      let s ← E.encStep words output offset { s with words_char := wc }
      statDiv (copy_size * w)
      let pars ← writeBlocks E.base.n_outputs wanted (offset * w) (copy_size * w) s.out_char pars
      encBlockLoop E words output datas wanted block_size fuel pars (offset + E.base.pkt_size) s
    else pure (pars, s)

/-- `encode_blocks_vertical` (fec_base.h:1065-1151): the parity blocks, the
properties, the context for encoding and the heap -/
def FecV.encode_blocks_vertical (E : FecV) (enc : CtxB) (datas pars : Array (Option (Array Nat))) (props : Array Properties)
    (wanted : Array Bool) (block_size_bytes : Nat) (junk : Nat → Nat → Nat) (H : Heap) :
    Res (Array (Option (Array Nat)) × Array Properties × CtxB × Heap) := do
  cassert (decide (datas.size = E.base.n_data))
  cassert (decide (pars.size = E.base.n_outputs))
  cassert (decide (props.size = E.base.n_outputs))
  let props := props.map Properties.clear
  let block_size := block_size_bytes / E.base.word_size
  let (H, words) := Bufs.full junk H E.base.n_data E.base.pkt_size
  let (H, output) := Bufs.full junk H E.get_n_outputs E.base.pkt_size
  let (pars, s) ← E.encBlockLoop words output datas wanted block_size (block_size + 1) pars 0
    ⟨enc, H, freshChars junk E.base.n_data E.buf_size, freshChars junk E.get_n_outputs E.buf_size, props⟩
  pure (pars, s.props, s.enc, s.H)

/-- the loop of `decode_blocks_vertical` (fec_base.h:1250-1317); `data_bufs` are
both read and written -/
def FecV.decBlockLoop (E : FecV) (words output : Bufs) (ids apar : Array Nat) (nd : Nat)
    (pars : Array (Option (Array Nat))) (props : Array Properties) (wanted : Array Bool) (block_size : Nat) :
    Nat → Array (Option (Array Nat)) → Nat → DecSt → Res (Array (Option (Array Nat)) × Heap)
  | 0, _, _, _ => .error .diverges
  | fuel + 1, datas, offset, s =>
    if offset < block_size then do
      let copy_size := min E.base.pkt_size (block_size - offset)
      let w := E.base.word_size
      let wc ← (if E.base.sys then
          readBlocks nd 0 (fun i => rd ids i) datas (offset * w) (copy_size * w) s.words_char
        else pure s.words_char)
      let wc ← readBlocks (E.base.n_data - nd) nd (fun i => rd apar i) pars (offset * w) (copy_size * w) wc
      let wc := if copy_size < E.base.pkt_size then wc.map (fun c => zeroTail c (copy_size * w)) else wc
      let s ← E.decStep words output props offset { s with words_char := wc }
      let datas ← writeBlocks E.base.n_data wanted (offset * w) (copy_size * w) s.out_char datas
      decBlockLoop E words output ids apar nd pars props wanted block_size fuel datas (offset + E.base.pkt_size) s
    else pure (datas, s.H)

/-- `decode_blocks_vertical` (fec_base.h:1176-1321): the returned value, the
data blocks and the heap.  `missing` has `true` for a missing fragment.  The fragments are
selected as for streams (fec_base.h:1199-1235): `missing_idxs[i]` stands for a
null stream. -/
def FecV.decode_blocks_vertical (E : FecV) (datas pars : Array (Option (Array Nat))) (props : Array Properties)
    (missing wanted : Array Bool) (block_size_bytes : Nat) (mem : Nat → Nat) (junk : Nat → Nat → Nat) (H : Heap) :
    Res (Bool × Array (Option (Array Nat)) × Heap) := do
  let B := E.base
  let block_size := block_size_bytes / B.word_size
  if B.sys then cassert (decide (datas.size = B.n_data)) else pure ()
  cassert (decide (pars.size = B.n_outputs))
  cassert (decide (props.size = B.n_outputs))
  let pres := missing.map (fun b => !b)
  let sel ← B.selectFragments pres (if B.sys then pres.extract B.n_data pres.size else pres) mem
  match sel with
  | .allData => pure (true, datas, H)
  | .tooFew => pure (false, datas, H)
  | .use ids apar nd => do
    let ids := (ids.toList.mergeSort (fun x y => decide (x ≤ y))).toArray
    let (H, words) := Bufs.full junk H B.n_data B.pkt_size
    let (H, output) := Bufs.full junk H B.n_data B.pkt_size
    let (H, C, props) ← E.init_context_dec ids props B.pkt_size output mem junk H
    let (datas, H) ← E.decBlockLoop words output ids apar nd pars props wanted block_size (block_size + 1) datas 0
      ⟨C, H, freshChars junk B.n_data E.buf_size, freshChars junk B.n_data E.buf_size⟩
    pure (true, datas, H)

/-! ### the FNT code on packets -/

/-- An `RsFnt<T>` object (fec_rs_fnt.h:52-68).  The last members are only used
by the systematic mode. -/
structure RsFntObj where
  code : FecB
  inter_words : Bufs
  suffix_words : Bufs
  enc_context : CtxB

namespace RsFntObj

/-- constructor of `RsFnt<T>`, `T` of `b` bits (fec_rs_fnt.h:69-165), compiled with the functions `bd`; the
properties passed to the encoding context are an empty vector -/
def mk' (bd : Build) (b db : Nat) (sys : Bool) (word_size n_data n_parities pkt_size : Nat) (mem : Nat → Nat)
    (junk : Nat → Nat → Nat) (H : Heap) : Res (Heap × RsFntObj) := do
  let B ← RsFnt.mkBase b db sys word_size n_data n_parities pkt_size mem
  let m ← Arith.ceil2 32 n_data
  let len_2k ← B.F.codeLenHC (2 * n_data)
  let R ← Radix2.mk' B.F B.n m
  let R2 ← Radix2.mk' B.F len_2k len_2k
  if sys then do
    let enc_frag_ids := Array.ofFn (fun i : Fin n_data => i.1)
    let (H, inter_words) := Bufs.full junk H n_data pkt_size
    let (H, suffix_words) := Bufs.full junk H (B.n - n_data - B.n_outputs) pkt_size
    let code : FecB := ⟨B, bd, bd.fth R pkt_size, bd.fth R2 pkt_size, default⟩
    let (H, ctx, _) ← code.init_context_dec enc_frag_ids #[] pkt_size inter_words mem junk H
    let (H, dic) := Bufs.full junk H B.n pkt_size
    pure (H, ⟨{ code with dec_inter_codeword := dic }, inter_words, suffix_words, ctx⟩)
  else pure (H, ⟨⟨B, bd, bd.fth R pkt_size, bd.fth R2 pkt_size, default⟩, default, default, default⟩)

/-- `encode(Buffers)` (fec_rs_fnt.h:236-251); the context is `enc_context` -/
def encode (R : RsFntObj) (enc : CtxB) (output : Bufs) (props : Array Properties) (offset : Nat) (words : Bufs)
    (H : Heap) : Res (CtxB × Heap × Array Properties) := do
  let (enc, H) ← (if R.code.base.sys then do
      let (enc, H) ← R.code.decode_apply true enc R.inter_words words H
      let tmp ← Bufs.concat words output
      let out ← Bufs.concat tmp R.suffix_words
      let H ← R.code.fft.fft out.mem R.inter_words.mem H
      pure (enc, H)
    else do
      let H ← R.code.fft.fft output.mem words.mem H
      pure (enc, H))
  let props ← R.code.build.post R.code.base output props offset H
  pure (enc, H, props)

/-- the object as a `FecCode<T>` -/
def fecV (R : RsFntObj) (b : Nat) : FecV where
  base := R.code.base
  b := b
  get_n_outputs := if R.code.base.sys then R.code.base.n_parities else R.code.base.n
  encode := R.encode
  init_context_dec := R.code.init_context_dec
  decode := R.code.decode

end RsFntObj
end Quad
