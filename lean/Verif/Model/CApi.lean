import Verif.Model.Simd

/-!
# Model of src/quadiron_c.cpp

The memory of the caller is an array of blocks of bytes: data block `i` is block `i`, parity block `i` is block
`n_data + i`; distinct blocks do not overlap.  A pointer into it is the index of a block and an offset.  A block that must
not be accessed (missing, or not allocated) may have any contents, or none.  An access outside a block or a table
is undefined behaviour.

`encode_blocks_vertical` and `decode_blocks_vertical` of Model/FecBuf.lean take blocks by value; here the C functions pass
pointers, and some of them are equal (the output fragments of a non-systematic code replace the data), so the two functions are
modelled again with pointers.
-/

namespace Quad.CApi

/-- a pointer to a block of the caller; `none` is the null pointer -/
abbrev Ptr := Option (Nat × Nat)

/-- `memcpy` from the pointers `idx i` to `words_char` (fec_base.h:1098-1103, 1254-1271) -/
def readU (count dst : Nat) (idx : Nat → Res Nat) (ptrs : Array Ptr) (U : Array (Array Nat)) (off len : Nat)
    (wc : Array (Array Nat)) : Res (Array (Array Nat)) :=
  forN count wc (fun i wc => do
    let j ← idx i
    let p ← rd ptrs j
    match p with
    | none => ub
    | some p => do
      let s ← rd U p.1
      let d ← rd wc (dst + i)
      let d ← copyBytes d s (p.2 + off) len
      wr wc (dst + i) d)

/-- `memcpy` of the wanted results to the caller's memory (fec_base.h:1140-1147, 1306-1313) -/
def writeU (n : Nat) (wanted : Array Bool) (off len : Nat) (oc : Array (Array Nat)) (ptrs : Array Ptr)
    (U : Array (Array Nat)) : Res (Array (Array Nat)) :=
  forN n U (fun i U => do
    let wnt ← rd wanted i
    if wnt then do
      let p ← rd ptrs i
      match p with
      | none => ub
      | some p => do
        let d ← rd U p.1
        let s ← rd oc i
        let d ← storeBytes d s (p.2 + off) len
        wr U p.1 d
    else pure U)

variable (E : FecV)

/-- the loop of `encode_blocks_vertical` (fec_base.h:1094-1149) -/
def encLoopU (words output : Bufs) (datas pars : Array Ptr) (wanted : Array Bool) (block_size : Nat) :
    Nat → Array (Array Nat) → Nat → EncSt → Res (Array (Array Nat) × EncSt)
  | 0, _, _, _ => .error .diverges
  | fuel + 1, U, offset, s =>
    if offset < block_size then do
      let copy_size := min E.base.pkt_size (block_size - offset)
      let w := E.base.word_size
      let wc ← readU E.base.n_data 0 (fun i => .ok i) datas U (offset * w) (copy_size * w) s.words_char
      let wc := if copy_size < E.base.pkt_size then wc.map (fun c => zeroTail c (copy_size * w)) else wc
      let s ← E.encStep words output offset { s with words_char := wc }
      statDiv (copy_size * w)
      let U ← writeU E.base.n_outputs wanted (offset * w) (copy_size * w) s.out_char pars U
      encLoopU words output datas pars wanted block_size fuel U (offset + E.base.pkt_size) s
    else pure (U, s)

/-- `encode_blocks_vertical` (fec_base.h:1065-1151) on pointers: the caller's memory, the properties, the context for encoding and
the heap of the library -/
def encodeU (enc : CtxB) (datas pars : Array Ptr) (props : Array Properties) (wanted : Array Bool) (block_size_bytes : Nat)
    (junk : Nat → Nat → Nat) (U : Array (Array Nat)) (H : Heap) : Res (Array (Array Nat) × Array Properties × CtxB × Heap) := do
  cassert (decide (datas.size = E.base.n_data))
  cassert (decide (pars.size = E.base.n_outputs))
  cassert (decide (props.size = E.base.n_outputs))
  let props := props.map Properties.clear
  let block_size := block_size_bytes / E.base.word_size
  let (H, words) := Bufs.full junk H E.base.n_data E.base.pkt_size
  let (H, output) := Bufs.full junk H E.get_n_outputs E.base.pkt_size
  let (U, s) ← encLoopU E words output datas pars wanted block_size (block_size + 1) U 0
    ⟨enc, H, freshChars junk E.base.n_data E.buf_size, freshChars junk E.get_n_outputs E.buf_size, props⟩
  pure (U, s.props, s.enc, s.H)

/-- the loop of `decode_blocks_vertical` (fec_base.h:1250-1317) -/
def decLoopU (words output : Bufs) (ids apar : Array Nat) (nd : Nat) (datas pars : Array Ptr) (props : Array Properties)
    (wanted : Array Bool) (block_size : Nat) : Nat → Array (Array Nat) → Nat → DecSt → Res (Array (Array Nat) × Heap)
  | 0, _, _, _ => .error .diverges
  | fuel + 1, U, offset, s =>
    if offset < block_size then do
      let copy_size := min E.base.pkt_size (block_size - offset)
      let w := E.base.word_size
      let wc ← (if E.base.sys then
          readU nd 0 (fun i => rd ids i) datas U (offset * w) (copy_size * w) s.words_char
        else pure s.words_char)
      let wc ← readU (E.base.n_data - nd) nd (fun i => rd apar i) pars U (offset * w) (copy_size * w) wc
      let wc := if copy_size < E.base.pkt_size then wc.map (fun c => zeroTail c (copy_size * w)) else wc
      let s ← E.decStep words output props offset { s with words_char := wc }
      let U ← writeU E.base.n_data wanted (offset * w) (copy_size * w) s.out_char datas U
      decLoopU words output ids apar nd datas pars props wanted block_size fuel U (offset + E.base.pkt_size) s
    else pure (U, s.H)

/-- `decode_blocks_vertical` (fec_base.h:1176-1321) on pointers: the returned value, the caller's memory and the heap of the library -/
def decodeU (datas pars : Array Ptr) (props : Array Properties) (missing wanted : Array Bool) (block_size_bytes : Nat)
    (mem : Nat → Nat) (junk : Nat → Nat → Nat) (U : Array (Array Nat)) (H : Heap) : Res (Bool × Array (Array Nat) × Heap) := do
  let B := E.base
  let block_size := block_size_bytes / B.word_size
  if B.sys then cassert (decide (datas.size = B.n_data)) else pure ()
  cassert (decide (pars.size = B.n_outputs))
  cassert (decide (props.size = B.n_outputs))
  let pres := missing.map (fun b => !b)
  let sel ← B.selectFragments pres (if B.sys then pres.extract B.n_data pres.size else pres) mem
  match sel with
  | .allData => pure (true, U, H)
  | .tooFew => pure (false, U, H)
  | .use ids apar nd => do
    let ids := (ids.toList.mergeSort (fun x y => decide (x ≤ y))).toArray
    let (H, words) := Bufs.full junk H B.n_data B.pkt_size
    let (H, output) := Bufs.full junk H B.n_data B.pkt_size
    let (H, C, props) ← E.init_context_dec ids props B.pkt_size output mem junk H
    let (U, H) ← decLoopU E words output ids apar nd datas pars props wanted block_size (block_size + 1) U 0
      ⟨C, H, freshChars junk B.n_data E.buf_size, freshChars junk B.n_data E.buf_size⟩
    pure (true, U, H)

/-! ### the C functions -/

/-- `pkt_size` (quadiron_c.cpp:40) -/
def PKT_SIZE : Nat := 1024

/-- `quadiron_fnt32_new` (quadiron_c.cpp:37-54), in the build `simd`; `none` is the null pointer -/
def new (simd : Option Nat) (word_size n_data n_parities : Nat) (systematic : Bool) (mem : Nat → Nat) (junk : Nat → Nat → Nat)
    (H : Heap) : Res (Heap × Option RsFntObj) := do
  if word_size = 1 ∨ word_size = 2 then do
    let (H, R) ← RsFntObj.mk' (.of simd 32) 32 64 systematic word_size n_data n_parities PKT_SIZE mem junk H
    pure (H, some R)
  else pure (H, none)

/-- `quadiron_fnt32_get_metadata_size` (quadiron_c.cpp:61-71); the conversion to `int` is exact for blocks smaller than `2^44` bytes -/
def metadata_size (block_size : Nat) : Nat := ((block_size / 65536) + 16) * 4

/-- the `n` 32-bit words at the start of a block: `reinterpret_cast<uint32_t*>(data[i])` on a little-endian host -/
def metaWords (n : Nat) (b : Array Nat) : Array Nat :=
  Array.ofFn (fun j : Fin n => leVal ((b.extract (4 * j) (4 * j + 4)).toList))

/-- the block with its first words replaced -/
def setMeta (b area : Array Nat) : Array Nat :=
  (area.toList.flatMap (fun x => leBytes 4 x)).toArray ++ b.extract (4 * area.size) b.size

/-- `props.fnt_serialize(metadata, metadata_size / 4)` at the start of block `b`: all of the area must be in the block -/
def serialize (ms : Nat) (P : Properties) (b : Array Nat) : Res (Int × Array Nat) :=
  if ms ≤ b.size then do
    let (ret, area) ← P.fnt_serialize (metaWords (ms / 4) b)
    pure (ret, setMeta b area)
  else ub

/-- `props.fnt_deserialize(metadata, metadata_size / 4)` -/
def deserialize (ms : Nat) (P : Properties) (b : Array Nat) : Res (Int × Properties) :=
  if ms ≤ b.size then P.fnt_deserialize (metaWords (ms / 4) b) else ub

/-- the loops `for (i = 0; i < n; i++) { ret = pr(i).fnt_serialize(...); if (ret == -1) return -1; }` over the blocks `blk i`
(quadiron_c.cpp:114-147, 217-225): the code to return, and the memory -/
def serLoop (ms : Nat) (blk : Nat → Nat) (pr : Nat → Res Properties) : Nat → Nat → Array (Array Nat) → Res (Int × Array (Array Nat))
  | 0, _, U => pure (0, U)
  | n + 1, i, U => do
    let P ← pr i
    let b ← rd U (blk i)
    let (ret, b) ← serialize ms P b
    let U ← wr U (blk i) b
    if ret = -1 then pure (-1, U) else serLoop ms blk pr n (i + 1) U

/-- the loops that read the metadata of the fragments that are not missing (quadiron_c.cpp:171-200, 253-285): output fragment `i`
is block `first + i`.  `none` for `return -1`. -/
def deserLoop (ms first : Nat) (missing : Array Bool) (U : Array (Array Nat)) :
    Nat → Nat → Array Properties → Res (Option (Array Properties))
  | 0, _, props => pure (some props)
  | n + 1, i, props => do
    let miss ← rd missing (first + i)
    if miss then deserLoop ms first missing U n (i + 1) props
    else do
      let P ← rd props i
      let b ← rd U (first + i)
      let (ret, P) ← deserialize ms P b
      let props ← wr props i P
      if ret = -1 then pure none else deserLoop ms first missing U n (i + 1) props

/-- `n` pointers to the blocks `first, first + 1, ..`, after their metadata -/
def ptrs (ms first n : Nat) : Array Ptr := Array.ofFn (fun i : Fin n => some (first + i.1, ms))

variable (R : RsFntObj)

/-- index of the block of output fragment 0: the parities in systematic mode, else all blocks -/
def firstOut : Nat := if R.code.base.sys then R.code.base.n_data else 0

/-- `quadiron_fnt32_encode` (quadiron_c.cpp:73-150): returned value, memory of the caller, context for encoding and heap -/
def encode (enc : CtxB) (U : Array (Array Nat)) (wanted_idxs : Array Bool) (block_size : Nat) (junk : Nat → Nat → Nat) (H : Heap) :
    Res (Int × Array (Array Nat) × CtxB × Heap) := do
  let B := R.code.base
  let ms := metadata_size block_size
  let wanted ← forN B.n_outputs (Array.replicate B.n_outputs false) (fun i v => do
    let x ← rd wanted_idxs i
    wr v i x)
  let (U, props, enc, H) ← encodeU (R.fecV 32) enc (ptrs ms 0 B.n_data) (ptrs ms (firstOut R) B.n_outputs)
    (Array.replicate B.n_outputs .empty) wanted block_size junk U H
  if B.sys then do
    let (ret, U) ← serLoop ms (fun i => i) (fun _ => .ok .empty) B.n_data 0 U
    if ret = -1 then pure (-1, U, enc, H)
    else do
      let (ret, U) ← serLoop ms (fun i => B.n_data + i) (fun i => rd props i) B.n_parities 0 U
      pure (ret, U, enc, H)
  else do
    let (ret, U) ← serLoop ms (fun i => i) (fun i => rd props i) B.n_data 0 U
    if ret = -1 then pure (-1, U, enc, H)
    else do
      let (ret, U) ← serLoop ms (fun i => B.n_data + i) (fun i => rd props (B.n_data + i)) B.n_parities 0 U
      pure (ret, U, enc, H)

/-- the pointers `parities_vec` of `quadiron_fnt32_decode`: null for missing fragments -/
def availPtrs (ms : Nat) (missing : Array Bool) : Array Ptr :=
  Array.ofFn (fun i : Fin R.code.base.n_outputs =>
    if gt missing (firstOut R + i.1) then none else some (firstOut R + i.1, ms))

/-- `quadiron_fnt32_decode` (quadiron_c.cpp:152-229): returned value, memory of the caller and heap.  `missing_idxs` must have
`code_len` entries, which are copied. -/
def decode (U : Array (Array Nat)) (missing : Array Bool) (block_size : Nat) (mem : Nat → Nat) (junk : Nat → Nat → Nat) (H : Heap) :
    Res (Int × Array (Array Nat) × Heap) := do
  let B := R.code.base
  let ms := metadata_size block_size
  if missing.size < B.code_len then ub else do
  let r ← deserLoop ms (firstOut R) missing U B.n_outputs 0 (Array.replicate B.n_outputs .empty)
  match r with
  | none => pure (-1, U, H)
  | some props => do
    let (res, U, H) ← decodeU (R.fecV 32) (ptrs ms 0 B.n_data) (availPtrs R ms missing) props (missing.extract 0 B.code_len)
      (Array.replicate B.n_data true) block_size mem junk U H
    if res then do
      let (ret, U) ← serLoop ms (fun i => i) (fun i => do
        let P ← rd props i
        pure P.clear) B.n_data 0 U
      pure (ret, U, H)
    else pure (-1, U, H)

/-- `quadiron_fnt32_reconstruct` (quadiron_c.cpp:231-406): returned value, memory of the caller, context for encoding and heap.  The
blocks of the vector `blocks` come after those of the caller. -/
def reconstruct (enc : CtxB) (U : Array (Array Nat)) (missing : Array Bool) (destination_idx block_size : Nat) (mem : Nat → Nat)
    (junk : Nat → Nat → Nat) (H : Heap) : Res (Int × Array (Array Nat) × CtxB × Heap) := do
  let B := R.code.base
  let ms := metadata_size block_size
  if missing.size < B.code_len then ub else do
  let miss := missing.extract 0 B.code_len
  let r ← deserLoop ms (firstOut R) missing U B.n_outputs 0 (Array.replicate B.n_outputs .empty)
  match r with
  | none => pure (-1, U, enc, H)
  | some props => do
    let pars := ptrs ms (firstOut R) B.n_outputs
    if B.sys ∧ destination_idx < B.n_data then do
      let wanted ← wr (Array.replicate B.n_outputs false) destination_idx true
      let (res, U, H) ← decodeU (R.fecV 32) (ptrs ms 0 B.n_data) pars props miss wanted block_size mem junk U H
      if res then do
        let (ret, U) ← serLoop ms (fun _ => destination_idx) (fun _ => .ok .empty) 1 0 U
        pure (ret, U, enc, H)
      else pure (-1, U, enc, H)
    else do
      let nU := U.size
      let tmp := fun i => !B.sys || gt missing i
      let U := U ++ Array.ofFn (fun i : Fin B.n_data => if tmp i then Array.replicate block_size 0 else #[])
      let datas : Array Ptr := Array.ofFn (fun i : Fin B.n_data => if tmp i then some (nU + i.1, 0) else some (i.1, ms))
      let wanted_data := Array.ofFn (fun i : Fin B.n_data => tmp i.1)
      let need_decode := wanted_data.any id
      let (res, U, H) ← (if need_decode then
          decodeU (R.fecV 32) datas pars props miss wanted_data block_size mem junk U H
        else pure (true, U, H))
      if res then do
        let dest := destination_idx - firstOut R
        let wanted ← wr (Array.replicate B.n_outputs false) dest true
        let (U, props, enc, H) ← encodeU (R.fecV 32) enc datas pars props wanted block_size junk U H
        let (ret, U) ← serLoop ms (fun _ => destination_idx) (fun _ => rd props dest) 1 0 U
        pure (ret, U.extract 0 nU, enc, H)
      else pure (-1, U.extract 0 nU, enc, H)

end Quad.CApi
