import Verif.Model.Fec

/-!
# Model of src/vec_buffers.h, and of the radix-2 transform on buffers in memory

The heap is the array of the memory blocks allocated so far, each an array of
elements; a pointer is a block number.  Freed blocks are not reused.
`junk b` is the arbitrary initial contents of block `b`.
A `vec::Buffers<T>` object holds a vector of pointers, so that several objects
can share blocks.
-/

namespace Quad

/-- the memory blocks -/
abbrev Heap := Array (Array Nat)

namespace Heap

/-- `p[j]` -/
def rdEl (H : Heap) (p j : Nat) : Res Nat := do
  let b ← rd H p
  rd b j

/-- `p[j] = x` -/
def wrEl (H : Heap) (p j x : Nat) : Res Heap := do
  let b ← rd H p
  let b ← wr b j x
  wr H p b

/-- `memcpy(dst, src, len)`, `std::copy_n(src, len, dst)` -/
def cpy (H : Heap) (dst src len : Nat) : Res Heap :=
  forN len H (fun j H => do
    let x ← rdEl H src j
    wrEl H dst j x)

/-- `std::fill_n(dst, len, x)`, `memset(dst, 0, len)` -/
def fill (H : Heap) (dst len x : Nat) : Res Heap :=
  forN len H (fun j H => wrEl H dst j x)

end Heap

/-- A `vec::Buffers<T>` (vec_buffers.h:128-137).  Which blocks the object owns
(`mem_alloc_case`) only matters to its destructor: see `Verif.Model.Life`. -/
structure Bufs where
  mem : Array Nat
  n : Nat
  size : Nat
  deriving DecidableEq, Repr, Inhabited

namespace Bufs

/-- constructor `Buffers(n, size)` (vec_buffers.h:146-158): `n` new blocks -/
def full (junk : Nat → Nat → Nat) (H : Heap) (n size : Nat) : Heap × Bufs :=
  (H ++ Array.ofFn (fun i : Fin n => fresh (junk (H.size + i)) size),
   ⟨Array.ofFn (fun i : Fin n => H.size + i.1), n, size⟩)

/-- constructor `Buffers(n, size, mem)` (vec_buffers.h:167-175) -/
def ofMem (n size : Nat) (mem : Array Nat) : Bufs := ⟨mem, n, size⟩

/-- `get(i)` (vec_buffers.h:385-397) -/
def get (B : Bufs) (i : Nat) : Res Nat := do
  cassert (decide (i < B.n))
  rd B.mem i

/-- constructor `Buffers(vec, n)` (vec_buffers.h:183-211): a deep copy of the
first `n` buffers, padded with zero buffers -/
def copyOf (junk : Nat → Nat → Nat) (H : Heap) (vec : Bufs) (n : Nat) : Res (Heap × Bufs) := do
  let m := if n = 0 then vec.n else n
  let (H, B) := full junk H m vec.size
  let copy_len := if m ≤ vec.n then m else vec.n
  let H ← forN copy_len H (fun i H => do
    let s ← vec.get i
    let d ← rd B.mem i
    Heap.cpy H d s vec.size)
  let H ← (if m > vec.n then
      forStep vec.n m 1 H (fun i H => do
        let d ← rd B.mem i
        Heap.fill H d vec.size 0)
    else pure H)
  pure (H, B)

/-- the block `zeros` of the zero-extended views: one more block, filled with 0
(vec_buffers.h:243-244, 317-318) -/
def zeroBlock (H : Heap) (size : Nat) : Heap := H.push (Array.replicate size 0)

/-- constructor `Buffers(vec, begin, end)` (vec_buffers.h:224-249).  Iterators
outside `vec_mem` are undefined behaviour. -/
def slice (H : Heap) (vec : Bufs) (b e : Nat) : Res (Heap × Bufs) := do
  cassert (decide (b < e))
  if e ≤ vec.n then
    if e ≤ vec.mem.size then pure (H, ⟨vec.mem.extract b e, e - b, vec.size⟩) else ub
  else
    if b ≤ vec.mem.size then
      pure (zeroBlock H vec.size,
        ⟨vec.mem.extract b vec.mem.size ++ Array.replicate (e - vec.n) H.size, e - b, vec.size⟩)
    else ub

/-- constructor `Buffers(vec1, vec2)` (vec_buffers.h:257-274) -/
def concat (vec1 vec2 : Bufs) : Res Bufs := do
  cassert (decide (vec1.size = vec2.size))
  pure ⟨vec1.mem ++ vec2.mem, vec1.n + vec2.n, vec1.size⟩

/-- constructor `Buffers(vec, map, n)` (vec_buffers.h:295-327).  In the case
`vec_n >= n` the vector `mem` is only reserved: it has no element, so every
write of the last loop is out of range. -/
def shuffle (H : Heap) (vec : Bufs) (map : Array Nat) (n : Nat) : Res (Heap × Bufs) := do
  cassert (decide (map.size ≤ n))
  let (H, mem) := if vec.n ≥ n then (H, #[]) else (zeroBlock H vec.size, Array.replicate n H.size)
  let mem ← forN map.size mem (fun i mem => do
    let j ← rd map i
    let p ← rd vec.mem i
    wr mem j p)
  pure (H, ⟨mem, n, vec.size⟩)

/-- `zero_fill` (vec_buffers.h:361-366) -/
def zero_fill (H : Heap) (B : Bufs) : Res Heap :=
  forN B.n H (fun i H => do
    let p ← rd B.mem i
    Heap.fill H p B.size 0)

/-- `fill(i, value)` (vec_buffers.h:368-372) -/
def fill (H : Heap) (B : Bufs) (i x : Nat) : Res Heap := do
  let p ← rd B.mem i
  Heap.fill H p B.size x

/-- `copy(v)` (vec_buffers.h:411-419) -/
def copy (H : Heap) (B v : Bufs) : Res Heap := do
  cassert (decide (v.n = B.n))
  cassert (decide (v.size ≤ B.size))
  forN B.n H (fun i H => do
    let s ← v.get i
    let d ← rd B.mem i
    Heap.cpy H d s v.size)

/-- `copy(i, buf)` (vec_buffers.h:421-425) -/
def copyAt (H : Heap) (B : Bufs) (i src : Nat) : Res Heap := do
  let d ← rd B.mem i
  Heap.cpy H d src B.size

/-- `separate_even_odd()` (vec_buffers.h:427-443): the pointers at even indices
first.  For an odd `n` the last turn reads `get(n)`. -/
def separate_even_odd (B : Bufs) : Res Bufs := do
  let half := B.n / 2
  let m ← forN ((B.n + 1) / 2) (Array.replicate B.n 0) (fun j m => do
    let a ← B.get (2 * j)
    let m ← wr m j a
    let b ← B.get (2 * j + 1)
    wr m (j + half) b)
  let mem ← forN B.n B.mem (fun i mem => do
    let x ← rd m i
    wr mem i x)
  pure { B with mem := mem }

/-- loop over the elements of two buffers of `operator==` (vec_buffers.h:464-468) -/
def eqElems (H : Heap) (p q : Nat) : Nat → Nat → Res Bool
  | 0, _ => .ok true
  | k + 1, j => do
    let x ← Heap.rdEl H p j
    let y ← Heap.rdEl H q j
    if x ≠ y then pure false else eqElems H p q k (j + 1)

/-- loop over the buffers of `operator==` (vec_buffers.h:460-469) -/
def eqBufs (H : Heap) (l r : Bufs) : Nat → Nat → Res Bool
  | 0, _ => .ok true
  | k + 1, i => do
    let p ← l.get i
    let q ← r.get i
    let e ← eqElems H p q l.size 0
    if e then eqBufs H l r k (i + 1) else pure false

/-- `operator==` (vec_buffers.h:454-471) -/
def eq (H : Heap) (l r : Bufs) : Res Bool :=
  if l.n ≠ r.n ∨ l.size ≠ r.size then .ok false
  else eqBufs H l r l.n 0

end Bufs

/-! ### buffer-level operations of the field (gf_ring.h) -/

namespace BufOps
variable (F : GF)

/-- `mul_coef_to_buf` (gf_ring.h:363-372) -/
def mul_coef_to_buf (a src dest len : Nat) (H : Heap) : Res Heap :=
  forN len H (fun i H => do
    let x ← Heap.rdEl H src i
    Heap.wrEl H dest i (F.mul a x))

/-- `neg(n, x)` (gf_ring.h:832-839) -/
def negBuf (n p : Nat) (H : Heap) : Res Heap :=
  forN n H (fun i H => do
    let x ← Heap.rdEl H p i
    Heap.wrEl H p i (F.sub 0 x))

/-- one buffer of `mul_vec_to_vecp` (gf_ring.h:387-400): nothing is written when
the coefficient is above `card - 1` -/
def mulCoef (coef s d len : Nat) (H : Heap) : Res Heap :=
  if coef > 1 ∧ coef < F.cardM1 then mul_coef_to_buf F coef s d len H
  else if coef = 1 then Heap.cpy H d s len
  else if coef = 0 then Heap.fill H d len 0
  else if coef = F.cardM1 then do
    let H ← Heap.cpy H d s len
    negBuf F len d H
  else pure H

/-- `mul_vec_to_vecp` (gf_ring.h:374-401).  `dest.copy` and `dest.fill` use the
size of `dest`, the same as that of `src` in every call. -/
def mul_vec_to_vecp (u : Array Nat) (src dest : Bufs) (H : Heap) : Res Heap := do
  cassert (decide (u.size = src.n))
  forN u.size H (fun i H => do
    let coef ← rd u i
    let s ← rd src.mem i
    let d ← rd dest.mem i
    mulCoef F coef s d src.size H)

/-- `add_two_bufs` (gf_ring.h:403-411) -/
def add_two_bufs (src dest len : Nat) (H : Heap) : Res Heap :=
  forN len H (fun i H => do
    let x ← Heap.rdEl H src i
    let y ← Heap.rdEl H dest i
    Heap.wrEl H dest i (F.add x y))

/-- `add_vecp_to_vecp` (gf_ring.h:413-425) -/
def add_vecp_to_vecp (src dest : Bufs) (H : Heap) : Res Heap := do
  cassert (decide (src.n = dest.n))
  cassert (decide (src.size = dest.size))
  forN src.n H (fun i H => do
    let s ← src.get i
    let d ← dest.get i
    add_two_bufs F s d src.size H)

/-- `sub_two_bufs` (gf_ring.h:427-435) -/
def sub_two_bufs (a b res len : Nat) (H : Heap) : Res Heap :=
  forN len H (fun i H => do
    let x ← Heap.rdEl H a i
    let y ← Heap.rdEl H b i
    Heap.wrEl H res i (F.sub x y))

/-- `sub_vecp_to_vecp` (gf_ring.h:437-451) -/
def sub_vecp_to_vecp (a b res : Bufs) (H : Heap) : Res Heap := do
  cassert (decide (a.n = b.n))
  cassert (decide (a.size = b.size))
  forN a.n H (fun i H => do
    let x ← a.get i
    let y ← b.get i
    let r ← res.get i
    sub_two_bufs F x y r a.size H)

/-- `neg(Buffers)` (gf_ring.h:841-848) -/
def negBufs (B : Bufs) (H : Heap) : Res Heap :=
  forN B.n H (fun i H => do
    let p ← B.get i
    negBuf F B.size p H)

/-- `hadamard_mul(n, x, y)` (gf_ring.h:824-830) on memory -/
def hadamard_mul (n x y : Nat) (H : Heap) : Res Heap :=
  forN n H (fun i H => do
    let a ← Heap.rdEl H x i
    let b ← Heap.rdEl H y i
    Heap.wrEl H x i (F.mul a b))

end BufOps

/-! ### `Radix2` on buffers in memory

`mem` is the vector of pointers of the output object; `bit_rev_permute` of
Model/Fft2n.lean, used on `mem`, is `bit_rev_permute(Buffers)` (fft_2n.h:233-241),
which swaps pointers. -/

namespace Radix2

variable (R : Radix2) (pkt : Nat) (mem : Array Nat)

/-- `memcpy`/`memset` of a range of buffers (fft_2n.h:378-381, 385-387) -/
def fillRangeH (start len : Nat) (f : Nat → Heap → Res Heap) (H : Heap) : Res Heap :=
  forN len H (fun t H => do
    let d ← rd mem (start + t)
    f d H)

/-- bit-reversed copy of the input (fft_2n.h:376-388) -/
def scatterH (g : Nat) (input : Array Nat) (H : Heap) : Res Heap := do
  let H ← forN input.size H (fun idx H => do
    let s ← rd input idx
    let r ← rd R.rev idx
    fillRangeH mem r g (fun d H => Heap.cpy H d s pkt) H)
  forStep input.size R.data_len 1 H (fun idx H => do
    let r ← rd R.rev idx
    fillRangeH mem r g (fun d H => Heap.fill H d pkt 0) H)

/-- one turn of `butterfly_ct_step_slow` (fft_2n.h:491-501) -/
def ctPairH (r m i : Nat) (H : Heap) : Res Heap := do
  let a ← rd mem i
  let b ← rd mem (i + m)
  forN pkt H (fun j H => do
    let bj ← Heap.rdEl H b j
    let aj ← Heap.rdEl H a j
    let x := R.F.mul r bj
    let H ← Heap.wrEl H b j (R.F.sub aj x)
    Heap.wrEl H a j (R.F.add aj x))

/-- one turn of `butterfly_gs_step_slow` (fft_2n.h:600-609) -/
def gsPairH (r m i : Nat) (H : Heap) : Res Heap := do
  let a ← rd mem i
  let b ← rd mem (i + m)
  forN pkt H (fun j H => do
    let aj ← Heap.rdEl H a j
    let bj ← Heap.rdEl H b j
    let x := R.F.sub aj bj
    let H ← Heap.wrEl H a j (R.F.add aj bj)
    Heap.wrEl H b j (R.F.mul r x))

/-- one turn of `butterfly_gs_step_simple_slow` (fft_2n.h:620-627) -/
def gsSimplePairH (r m i : Nat) (H : Heap) : Res Heap := do
  let a ← rd mem i
  let b ← rd mem (i + m)
  forN pkt H (fun j H => do
    let aj ← Heap.rdEl H a j
    Heap.wrEl H b j (R.F.mul r aj))

/-- `butterfly_ct_step_slow` (fft_2n.h:482-503) -/
def ctStepH (r start m step : Nat) (H : Heap) : Res Heap :=
  forStep start R.n step H (fun i H => R.ctPairH pkt mem r m i H)

/-- `butterfly_ct_two_layers_step_slow` (fft_2n.h:455-480) -/
def ctTwoLayersH (start m : Nat) (H : Heap) : Res Heap := do
  let step := 4 * m
  let r1 ← rd R.W (start * R.n / m / 2)
  let H ← R.ctStepH pkt mem r1 start m step H
  let H ← R.ctStepH pkt mem r1 (start + 2 * m) m step H
  let r2 ← rd R.W (start * R.n / m / 4)
  let H ← R.ctStepH pkt mem r2 start (2 * m) step H
  let r3 ← rd R.W ((start + m) * R.n / m / 4)
  R.ctStepH pkt mem r3 (start + m) (2 * m) step H

/-- `for (; m < end; m <<= 2)` (fft_2n.h:395-399) -/
def ctTwoStagesH : Nat → Nat → Heap → Res (Nat × Heap)
  | 0, _, _ => .error .diverges
  | fuel + 1, m, H =>
    if m < R.n / 2 then do
      let H ← forN m H (fun j H => R.ctTwoLayersH pkt mem j m H)
      ctTwoStagesH fuel (4 * m) H
    else .ok (m, H)

/-- `fft(Buffers&, Buffers&)` (fft_2n.h:360-408); `input` are the pointers of
the input object -/
def fftH (input : Array Nat) (H : Heap) : Res Heap := do
  cassert (decide (input.size > 0))
  cassert (decide (R.data_len > 0))
  let g ← R.groupLen input.size
  let H ← R.scatterH pkt mem g input H
  let (m, H) ← R.ctTwoStagesH pkt mem (R.n + 1) g H
  if m < R.n then do
    cassert (decide (m = R.n / 2))
    forN m H (fun j H => do
      let r ← rd R.W j
      R.ctStepH pkt mem r j m R.n H)
  else pure H

/-- one stage of `fft_inv` (fft_2n.h:546-553) -/
def gsStageH (m : Nat) (H : Heap) : Res Heap :=
  let doubled_m := 2 * m
  forN m H (fun j H => do
    let r ← rd R.inv_W (j * R.n / doubled_m)
    forStep j R.n doubled_m H (fun i H => R.gsPairH pkt mem r m i H))

/-- `for (; m >= 1; m /= 2)` (fft_2n.h:546) -/
def gsStagesH : Nat → Nat → Heap → Res Heap
  | 0, _, _ => .error .diverges
  | fuel + 1, m, H =>
    if m ≥ 1 then do
      let H ← R.gsStageH pkt mem m H
      gsStagesH fuel (m / 2) H
    else .ok H

/-- the simplified stages (fft_2n.h:538-545) -/
def gsSimpleStagesH (input_len : Nat) : Nat → Nat → Heap → Res (Nat × Heap)
  | 0, _, _ => .error .diverges
  | fuel + 1, m, H =>
    if m ≥ input_len then do
      let doubled_m := 2 * m
      let H ← forN m H (fun j H => do
        let r ← rd R.inv_W (j * R.n / doubled_m)
        forStep j R.n doubled_m H (fun i H => R.gsSimplePairH pkt mem r m i H))
      gsSimpleStagesH input_len fuel (m / 2) H
    else .ok (m, H)

/-- the copy of the input (fft_2n.h:527-530) -/
def copyInH (input : Array Nat) (H : Heap) : Res Heap :=
  forN input.size H (fun i H => do
    let s ← rd input i
    let d ← rd mem i
    Heap.cpy H d s pkt)

/-- the butterflies of `fft_inv(Buffers&, Buffers&)` on the reversed pointers
(fft_2n.h:525-553) -/
def fftInvBodyH (input : Array Nat) (H : Heap) : Res Heap := do
  let H ← copyInH pkt mem input H
  let (m, H) ← (if input.size < R.n then do
      let p2 ← Arith.ceil2 32 input.size
      let H ← forStep input.size p2 1 H (fun i H => do
        let d ← rd mem i
        Heap.fill H d pkt 0)
      R.gsSimpleStagesH pkt mem input.size (R.n + 1) (R.n / 2) H
    else pure (R.n / 2, H))
  R.gsStagesH pkt mem (R.n + 1) m H

/-- `fft_inv(Buffers&, Buffers&)` (fft_2n.h:515-561): the pointers of the output
object and the heap.  The pointers are swapped before and after. -/
def fftInvH (input : Array Nat) (H : Heap) : Res (Array Nat × Heap) := do
  let mem ← R.bit_rev_permute mem
  let H ← R.fftInvBodyH pkt mem input H
  let mem ← R.bit_rev_permute mem
  pure (mem, H)

/-- `ifft(Buffers&, Buffers&)` (fft_2n.h:630-639): `mul_vec_to_vecp` with the
vector `vec_inv_n`, all of whose `n` elements are `inv_n` (fft_base.h:104-110) -/
def ifftH (input : Array Nat) (H : Heap) : Res (Array Nat × Heap) := do
  let (mem, H) ← R.fftInvH pkt mem input H
  let H ← forN mem.size H (fun i H => do
    let d ← rd mem i
    BufOps.mulCoef R.F R.inv_n d d pkt H)
  pure (mem, H)

end Radix2
end Quad
