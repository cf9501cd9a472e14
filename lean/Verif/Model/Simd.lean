import Verif.Model.FecBuf

/-!
# Model of the vectorised code: src/simd_128.h, src/simd_256.h, src/simd_fnt.h,
src/simd_ring.h, src/simd_radix2_fft.h, src/gf_ring.cpp, src/fft_2n.cpp and
src/fec_vectorisation.cpp

A register is the function giving its bytes; `R` is the number of bytes of a
register (16 for SSE4.1, 32 for AVX2) and `w` that of an element (`sizeof(T)`:
2 or 4).  The meaning of the intrinsics is that of Intel's documentation.
Blocks of memory are aligned (src/simd/allocator.h), so aligned loads do not fault.
-/

namespace Quad
namespace Simd

/-- a register: byte `j` for `j < R` -/
abbrev Reg := Nat → Nat

variable (R w : Nat)

/-- element `i` of a register -/
def lane (x : Reg) (i : Nat) : Nat := leVal ((List.range w).map (fun t => x (i * w + t)))

/-- the register of given elements -/
def ofLanes (f : Nat → Nat) : Reg := fun j => f (j / w) / 256 ^ (j % w) % 256

/-- `set_one`, `_mm_set1_epi16/32` (simd_128.h:102-113, simd_256.h:115-126) -/
def set_one (v : Nat) : Reg := ofLanes w (fun _ => v)

/-- `one` (simd_128.h:44-54) -/
def one : Reg := set_one w 1

/-- `zero` (simd_128.h:56-59) -/
def zero : Reg := fun _ => 0

/-- `add<T>`, `_mm_add_epi16/32` (simd_128.h:115-126) -/
def add (x y : Reg) : Reg := ofLanes w (fun i => (lane w x i + lane w y i) % 256 ^ w)

/-- `sub<T>`, `_mm_sub_epi16/32` (simd_128.h:128-139) -/
def sub (x y : Reg) : Reg := ofLanes w (fun i => (lane w x i + (256 ^ w - lane w y i)) % 256 ^ w)

/-- `mul<T>`, `_mm_mullo_epi16/32` (simd_128.h:141-152) -/
def mul (x y : Reg) : Reg := ofLanes w (fun i => lane w x i * lane w y i % 256 ^ w)

/-- `compare_eq<T>`, `_mm_cmpeq_epi16/32` (simd_128.h:154-165) -/
def compare_eq (x y : Reg) : Reg := ofLanes w (fun i => if lane w x i = lane w y i then 256 ^ w - 1 else 0)

/-- `min<T>`, `_mm_min_epu16/32` (simd_128.h:167-178) -/
def min' (x y : Reg) : Reg := ofLanes w (fun i => if lane w x i ≤ lane w y i then lane w x i else lane w y i)

/-- `bit_and` (simd_128.h:75-78) -/
def bit_and (x y : Reg) : Reg := fun j => x j &&& y j

/-- `is_zero`, `_mm_testc_si128(zero(), x)`: no bit of `~0 & x` is set
(simd_128.h:91-94) -/
def is_zero (x : Reg) : Bool := (List.range R).all (fun j => x j == 0)

/-- `and_is_zero`, `_mm_testz_si128` (simd_128.h:87-90) -/
def and_is_zero (x y : Reg) : Bool := (List.range R).all (fun j => x j &&& y j == 0)

/-- `msb8_mask`, `_mm_movemask_epi8` (simd_128.h:83-86): bit `j` is the top bit of
byte `j` -/
def msb8_mask (x : Reg) : Nat := ((List.range R).map (fun j => x j / 128 % 2 * 2 ^ j)).sum

/-- `SHIFTR`, `_mm_srli_si128` (simd_128.h:96); on 256 bits each half is shifted
on its own (simd_256.h:109) -/
def shiftr (x : Reg) (k : Nat) : Reg := fun j => if j % 16 + k < 16 then x (j + k) else 0

/-- `BLEND8`, `_mm_blendv_epi8` (simd_128.h:97) -/
def blend8 (x y mask : Reg) : Reg := fun j => if 128 ≤ mask j then y j else x j

/-- `BLEND16`, `_mm_blend_epi16` (simd_128.h:98) -/
def blend16 (x y : Reg) (imm8 : Nat) : Reg := fun j => if imm8.testBit (j / 2 % 8) then y j else x j

/-- `MASK8_LO` (simd_128.h:62) -/
def MASK8_LO : Reg := set_one 2 0x80

/-- `I_MASK8_LO` (simd_fnt.h:65) -/
def I_MASK8_LO : Nat := 0b01010101

/-- `card<T>()` (simd_fnt.h:39-50) -/
def card : Reg := set_one w (if w = 2 then 257 else 65537)

/-- `card_minus_one<T>()` (simd_fnt.h:52-63) -/
def card_minus_one : Reg := set_one w (if w = 2 then 256 else 65536)

/-- `get_low_half<T>` (simd_fnt.h:67-78) -/
def get_low_half (x : Reg) : Reg :=
  if w = 2 then blend8 zero x MASK8_LO else blend16 zero x I_MASK8_LO

/-- `get_high_half<T>` (simd_fnt.h:80-91) -/
def get_high_half (x : Reg) : Reg :=
  if w = 2 then blend8 zero (shiftr x 1) MASK8_LO else blend16 zero (shiftr x 2) I_MASK8_LO

/-- `mod_add` (simd_fnt.h:102-107) -/
def mod_add (x y : Reg) : Reg :=
  let res := add w x y
  min' w res (sub w res (card w))

/-- `mod_sub` (simd_fnt.h:116-121) -/
def mod_sub (x y : Reg) : Reg :=
  let res := sub w x y
  min' w res (add w res (card w))

/-- `mod_neg` (simd_fnt.h:129-134) -/
def mod_neg (x : Reg) : Reg :=
  let res := sub w (card w) x
  min' w res (sub w res (card w))

/-- `mod_mul` (simd_fnt.h:146-153) -/
def mod_mul (x y : Reg) : Reg :=
  let res := mul w x y
  mod_sub w (get_low_half w res) (get_high_half w res)

/-- `mod_mul_safe` (simd_fnt.h:164-178) -/
def mod_mul_safe (x y : Reg) : Reg :=
  let res := mod_mul w x y
  let cmp := bit_and (compare_eq w x (card_minus_one w)) (compare_eq w y (card_minus_one w))
  if is_zero R cmp then res else add w res (bit_and (one w) cmp)

/-! ### registers and memory -/

/-- number of elements per register (`ratio`, `countof<T>()`) -/
def ratio : Nat := R / w

/-- `load_to_reg(reinterpret_cast<VecType*>(p) + j)` (simd_128.h:66-69) -/
def loadReg (H : Heap) (p j : Nat) : Res Reg := do
  let b ← rd H p
  if (j + 1) * ratio R w ≤ b.size then
    .ok (fun t => if t < R then gt b (j * ratio R w + t / w) / 256 ^ (t % w) % 256 else 0)
  else ub

/-- `store_to_mem(reinterpret_cast<VecType*>(p) + j, x)` (simd_128.h:70-73) -/
def storeReg (H : Heap) (p j : Nat) (x : Reg) : Res Heap :=
  forN (ratio R w) H (fun t H => Heap.wrEl H p (j * ratio R w + t) (lane w x t))

/-- a loop unrolled `k` times and the loop over the remaining turns:
`for (; i < end; i += k) {...} for (; i < len; ++i) {...}`, with
`end = (len > k - 1) ? len - (k - 1) : 0`.  Where the code loads several registers
before storing them (simd_radix2_fft.h:185-211, 241-288), they are at different
addresses, and the turns are done in order here. -/
def unrolled (k len : Nat) (body : Nat → Heap → Res Heap) (H : Heap) : Res Heap := do
  let H ← forStep 0 (len - (k - 1)) k H (fun i H => forN k H (fun t H => body (i + t) H))
  forStep (stride 0 (len - (k - 1)) k * k) len 1 H body

/-- `simd::mul_coef_to_buf` (simd_ring.h:44-75) -/
def mul_coef_to_buf (card a src dest len : Nat) (H : Heap) : Res Heap := do
  let coef := set_one w a
  let vl := len / ratio R w
  let H ← unrolled 4 vl (fun i H => do
    let x ← loadReg R w H src i
    storeReg R w H dest i (mod_mul w coef x)) H
  forStep (vl * ratio R w) len 1 H (fun i H => do
    let x ← Heap.rdEl H src i
    Heap.wrEl H dest i (a * x % card % 256 ^ w))

/-- `simd::add_two_bufs` (simd_ring.h:77-96) -/
def add_two_bufs (card src dest len : Nat) (H : Heap) : Res Heap := do
  let vl := len / ratio R w
  let H ← forN vl H (fun i H => do
    let x ← loadReg R w H src i
    let y ← loadReg R w H dest i
    storeReg R w H dest i (mod_add w x y))
  forStep (vl * ratio R w) len 1 H (fun i H => do
    let x ← Heap.rdEl H src i
    let y ← Heap.rdEl H dest i
    let tmp := (x + y) % 256 ^ w
    Heap.wrEl H dest i (if tmp ≥ card then tmp - card else tmp))

/-- `simd::sub_two_bufs` (simd_ring.h:98-123) -/
def sub_two_bufs (card bufa bufb res len : Nat) (H : Heap) : Res Heap := do
  let vl := len / ratio R w
  let H ← forN vl H (fun i H => do
    let x ← loadReg R w H bufa i
    let y ← loadReg R w H bufb i
    storeReg R w H res i (mod_sub w x y))
  forStep (vl * ratio R w) len 1 H (fun i H => do
    let x ← Heap.rdEl H bufa i
    let y ← Heap.rdEl H bufb i
    Heap.wrEl H res i (if x ≥ y then x - y else (card + (256 ^ w - (y - x))) % 256 ^ w))

/-- `simd::mul_two_bufs` (simd_ring.h:125-146) -/
def mul_two_bufs (card src dest len : Nat) (H : Heap) : Res Heap := do
  let vl := len / ratio R w
  let H ← forN vl H (fun i H => do
    let x ← loadReg R w H src i
    let y ← loadReg R w H dest i
    storeReg R w H dest i (mod_mul_safe R w x y))
  forStep (vl * ratio R w) len 1 H (fun i H => do
    let x ← Heap.rdEl H src i
    let y ← Heap.rdEl H dest i
    Heap.wrEl H dest i (x * y % card % 256 ^ w))

/-- `simd::neg` (simd_ring.h:148-168) -/
def neg (card len buf : Nat) (H : Heap) : Res Heap := do
  let vl := len / ratio R w
  let H ← forN vl H (fun i H => do
    let x ← loadReg R w H buf i
    storeReg R w H buf i (mod_neg w x))
  forStep (vl * ratio R w) len 1 H (fun i H => do
    let x ← Heap.rdEl H buf i
    if x ≠ 0 then Heap.wrEl H buf i ((card + (256 ^ w - x)) % 256 ^ w) else pure H)

/-- `RingModN<uint16_t/uint32_t>::mul_vec_to_vecp` calling the vectorised
`mul_coef_to_buf` and `neg` (gf_ring.h:374-401, gf_ring.cpp:39-60, 79-87) -/
def mulCoef (F : GF) (coef s d len : Nat) (H : Heap) : Res Heap :=
  if coef > 1 ∧ coef < F.cardM1 then mul_coef_to_buf R w F.card coef s d len H
  else if coef = 1 then Heap.cpy H d s len
  else if coef = 0 then Heap.fill H d len 0
  else if coef = F.cardM1 then do
    let H ← Heap.cpy H d s len
    neg R w F.card len d H
  else pure H

/-- `mul_vec_to_vecp` (gf_ring.h:374-401) -/
def mul_vec_to_vecp (F : GF) (u : Array Nat) (src dest : Bufs) (H : Heap) : Res Heap := do
  cassert (decide (u.size = src.n))
  forN u.size H (fun i H => do
    let coef ← rd u i
    let s ← rd src.mem i
    let d ← rd dest.mem i
    mulCoef R w F coef s d src.size H)

/-- `neg(Buffers)` (gf_ring.h:841-848) -/
def negBufs (F : GF) (B : Bufs) (H : Heap) : Res Heap :=
  forN B.n H (fun i H => do
    let p ← B.get i
    neg R w F.card B.size p H)

/-! ### butterflies (simd_radix2_fft.h) -/

/-- `get_case` (simd_radix2_fft.h:48-58) -/
inductive CtGsCase where
  | SIMPLE | NORMAL | EXTREME
  deriving DecidableEq

/-- `get_case` (simd_radix2_fft.h:48-58) -/
def get_case (r q : Nat) : CtGsCase :=
  if r = 1 then .SIMPLE else if r < q - 1 then .NORMAL else .EXTREME

/-- `butterfly_ct` (simd_radix2_fft.h:73-94): the new `x` and `y` -/
def butterfly_ct (c : CtGsCase) (r : Reg) (x y : Reg) : Reg × Reg :=
  match c with
  | .SIMPLE => (mod_add w x y, mod_sub w x y)
  | .EXTREME => (mod_sub w x y, mod_add w x y)
  | .NORMAL =>
    let z := mod_mul w r y
    (mod_add w x z, mod_sub w x z)

/-- `butterfly_gs` (simd_radix2_fft.h:107-125) -/
def butterfly_gs (c : CtGsCase) (r : Reg) (x y : Reg) : Reg × Reg :=
  match c with
  | .SIMPLE => (mod_add w x y, mod_sub w x y)
  | .EXTREME => (mod_add w x y, mod_sub w y x)
  | .NORMAL => (mod_add w x y, mod_mul w r (mod_sub w x y))

/-- `butterfly_simple_gs` (simd_radix2_fft.h:135-148) -/
def butterfly_simple_gs (c : CtGsCase) (r : Reg) (x : Reg) : Reg :=
  match c with
  | .EXTREME => mod_neg w x
  | .NORMAL => mod_mul w r x
  | .SIMPLE => x

/-- one turn on registers `j` of two buffers (simd_radix2_fft.h:203-210) -/
def ctVec (card r a b j : Nat) (H : Heap) : Res Heap := do
  let x ← loadReg R w H a j
  let y ← loadReg R w H b j
  let p := butterfly_ct w (get_case r card) (set_one w r) x y
  let H ← storeReg R w H a j p.1
  storeReg R w H b j p.2

/-- `simd::butterfly_ct_step` (simd_radix2_fft.h:164-213) -/
def butterfly_ct_step (card : Nat) (mem : Array Nat) (r start m step len : Nat) (H : Heap) : Res Heap :=
  forStep start mem.size step H (fun i H => do
    let p ← rd mem i
    let q ← rd mem (i + m)
    unrolled 2 len (fun j H => ctVec R w card r p q j H) H)

/-- one turn of `do_butterfly_ct_2_layers` (simd_radix2_fft.h:274-287) -/
def ct2Vec (card r1 r2 r3 p q r s j : Nat) (H : Heap) : Res Heap := do
  let x ← loadReg R w H p j
  let y ← loadReg R w H q j
  let u ← loadReg R w H r j
  let v ← loadReg R w H s j
  let xy := butterfly_ct w (get_case r1 card) (set_one w r1) x y
  let uv := butterfly_ct w (get_case r1 card) (set_one w r1) u v
  let xu := butterfly_ct w (get_case r2 card) (set_one w r2) xy.1 uv.1
  let yv := butterfly_ct w (get_case r3 card) (set_one w r3) xy.2 uv.2
  let H ← storeReg R w H p j xu.1
  let H ← storeReg R w H q j yv.1
  let H ← storeReg R w H r j xu.2
  storeReg R w H s j yv.2

/-- `simd::butterfly_ct_two_layers_step` (simd_radix2_fft.h:215-289, 319-340) -/
def butterfly_ct_two_layers_step (card : Nat) (mem : Array Nat) (r1 r2 r3 start m len : Nat) (H : Heap) : Res Heap :=
  if len = 0 then pure H
  else forStep start mem.size (4 * m) H (fun i H => do
    let p ← rd mem i
    let q ← rd mem (i + m)
    let r ← rd mem (i + 2 * m)
    let s ← rd mem (i + 3 * m)
    unrolled 2 len (fun j H => ct2Vec R w card r1 r2 r3 p q r s j H) H)

/-- one turn of `butterfly_gs_step` (simd_radix2_fft.h:379-385) -/
def gsVec (card r a b j : Nat) (H : Heap) : Res Heap := do
  let x ← loadReg R w H a j
  let y ← loadReg R w H b j
  let p := butterfly_gs w (get_case r card) (set_one w r) x y
  let H ← storeReg R w H a j p.1
  storeReg R w H b j p.2

/-- `simd::butterfly_gs_step` (simd_radix2_fft.h:356-388) -/
def butterfly_gs_step (card : Nat) (mem : Array Nat) (r start m len : Nat) (H : Heap) : Res Heap :=
  if len = 0 then pure H
  else forStep start mem.size (2 * m) H (fun i H => do
    let p ← rd mem i
    let q ← rd mem (i + m)
    forN len H (fun j H => gsVec R w card r p q j H))

/-- one turn of `butterfly_gs_step_simple` (simd_radix2_fft.h:426-430) -/
def gsSimpleVec (card r a b j : Nat) (H : Heap) : Res Heap := do
  let x ← loadReg R w H a j
  storeReg R w H b j (butterfly_simple_gs w (get_case r card) (set_one w r) x)

/-- `simd::butterfly_gs_step_simple` (simd_radix2_fft.h:403-433) -/
def butterfly_gs_step_simple (card : Nat) (mem : Array Nat) (r start m len : Nat) (H : Heap) : Res Heap :=
  if len = 0 then pure H
  else forStep start mem.size (2 * m) H (fun i H => do
    let p ← rd mem i
    let q ← rd mem (i + m)
    forN len H (fun j H => gsSimpleVec R w card r p q j H))

end Simd

/-! ### `Radix2<uint16_t>` and `Radix2<uint32_t>` on buffers (fft_2n.cpp) -/

namespace Radix2
variable (rb w : Nat) (R : Radix2) (pkt : Nat) (mem : Array Nat)

/-- `butterfly_ct_step_slow` from element `off` (fft_2n.h:482-503) -/
def ctStepSlow (off r start m step : Nat) (H : Heap) : Res Heap :=
  forStep start R.n step H (fun i H => do
    let a ← rd mem i
    let b ← rd mem (i + m)
    forStep off pkt 1 H (fun j H => do
      let bj ← Heap.rdEl H b j
      let aj ← Heap.rdEl H a j
      let x := R.F.mul r bj
      let H ← Heap.wrEl H b j (R.F.sub aj x)
      Heap.wrEl H a j (R.F.add aj x)))

/-- `butterfly_ct_two_layers_step_slow` from element `off` (fft_2n.h:455-480) -/
def ctTwoLayersSlow (off start m : Nat) (H : Heap) : Res Heap := do
  let step := 4 * m
  let r1 ← rd R.W (start * R.n / m / 2)
  let H ← R.ctStepSlow pkt mem off r1 start m step H
  let H ← R.ctStepSlow pkt mem off r1 (start + 2 * m) m step H
  let r2 ← rd R.W (start * R.n / m / 4)
  let H ← R.ctStepSlow pkt mem off r2 start (2 * m) step H
  let r3 ← rd R.W ((start + m) * R.n / m / 4)
  R.ctStepSlow pkt mem off r3 (start + m) (2 * m) step H

/-- `butterfly_gs_step_slow` from element `off` (fft_2n.h:590-609) -/
def gsStepSlow (off r start m step : Nat) (H : Heap) : Res Heap :=
  forStep start R.n step H (fun i H => do
    let a ← rd mem i
    let b ← rd mem (i + m)
    forStep off pkt 1 H (fun j H => do
      let aj ← Heap.rdEl H a j
      let bj ← Heap.rdEl H b j
      let x := R.F.sub aj bj
      let H ← Heap.wrEl H a j (R.F.add aj bj)
      Heap.wrEl H b j (R.F.mul r x)))

/-- `butterfly_gs_step_simple_slow` from element `off` (fft_2n.h:613-629) -/
def gsSimpleStepSlow (off r start m step : Nat) (H : Heap) : Res Heap :=
  forStep start R.n step H (fun i H => do
    let a ← rd mem i
    let b ← rd mem (i + m)
    forStep off pkt 1 H (fun j H => do
      let aj ← Heap.rdEl H a j
      Heap.wrEl H b j (R.F.mul r aj)))

/-- `butterfly_ct_step` (fft_2n.cpp:66-81, 138-153); `simd_vec_len`,
`simd_trailing_len` and `simd_offset` are those of fft_2n.h:204-207 -/
def ctStepV (r start m step : Nat) (H : Heap) : Res Heap := do
  let ratio := Simd.ratio rb w
  let vl := pkt / ratio
  let H ← Simd.butterfly_ct_step rb w R.F.card mem r start m step vl H
  if pkt - vl * ratio > 0 then R.ctStepSlow pkt mem (vl * ratio) r start m step H else pure H

/-- `butterfly_ct_two_layers_step` (fft_2n.cpp:45-64, 117-136) -/
def ctTwoLayersV (start m : Nat) (H : Heap) : Res Heap := do
  let ratio := Simd.ratio rb w
  let vl := pkt / ratio
  let coefIndex := start * R.n / m / 2
  let r1 ← rd R.W coefIndex
  let r2 ← rd R.W (coefIndex / 2)
  let r3 ← rd R.W (coefIndex / 2 + R.n / 4)
  let H ← Simd.butterfly_ct_two_layers_step rb w R.F.card mem r1 r2 r3 start m vl H
  if pkt - vl * ratio > 0 then R.ctTwoLayersSlow pkt mem (vl * ratio) start m H else pure H

/-- `butterfly_gs_step` (fft_2n.cpp:85-98, 155-170) -/
def gsStepV (r start m step : Nat) (H : Heap) : Res Heap := do
  let ratio := Simd.ratio rb w
  let vl := pkt / ratio
  let H ← Simd.butterfly_gs_step rb w R.F.card mem r start m vl H
  if pkt - vl * ratio > 0 then R.gsStepSlow pkt mem (vl * ratio) r start m step H else pure H

/-- `butterfly_gs_step_simple` (fft_2n.cpp:100-113, 172-187) -/
def gsSimpleStepV (r start m step : Nat) (H : Heap) : Res Heap := do
  let ratio := Simd.ratio rb w
  let vl := pkt / ratio
  let H ← Simd.butterfly_gs_step_simple rb w R.F.card mem r start m vl H
  if pkt - vl * ratio > 0 then R.gsSimpleStepSlow pkt mem (vl * ratio) r start m step H else pure H

/-- `for (; m < end; m <<= 2)` (fft_2n.h:395-399) -/
def ctTwoStagesV : Nat → Nat → Heap → Res (Nat × Heap)
  | 0, _, _ => .error .diverges
  | fuel + 1, m, H =>
    if m < R.n / 2 then do
      let H ← forN m H (fun j H => R.ctTwoLayersV rb w pkt mem j m H)
      ctTwoStagesV fuel (4 * m) H
    else .ok (m, H)

/-- `fft(Buffers&, Buffers&)` (fft_2n.h:360-408) -/
def fftV (input : Array Nat) (H : Heap) : Res Heap := do
  cassert (decide (input.size > 0))
  cassert (decide (R.data_len > 0))
  let g ← R.groupLen input.size
  let H ← R.scatterH pkt mem g input H
  let (m, H) ← R.ctTwoStagesV rb w pkt mem (R.n + 1) g H
  if m < R.n then do
    cassert (decide (m = R.n / 2))
    forN m H (fun j H => do
      let r ← rd R.W j
      R.ctStepV rb w pkt mem r j m R.n H)
  else pure H

/-- one stage of `fft_inv` (fft_2n.h:546-553) -/
def gsStageV (m : Nat) (H : Heap) : Res Heap :=
  let doubled_m := 2 * m
  forN m H (fun j H => do
    let r ← rd R.inv_W (j * R.n / doubled_m)
    R.gsStepV rb w pkt mem r j m doubled_m H)

/-- `for (; m >= 1; m /= 2)` (fft_2n.h:546) -/
def gsStagesV : Nat → Nat → Heap → Res Heap
  | 0, _, _ => .error .diverges
  | fuel + 1, m, H =>
    if m ≥ 1 then do
      let H ← R.gsStageV rb w pkt mem m H
      gsStagesV fuel (m / 2) H
    else .ok H

/-- the simplified stages (fft_2n.h:538-545) -/
def gsSimpleStagesV (input_len : Nat) : Nat → Nat → Heap → Res (Nat × Heap)
  | 0, _, _ => .error .diverges
  | fuel + 1, m, H =>
    if m ≥ input_len then do
      let doubled_m := 2 * m
      let H ← forN m H (fun j H => do
        let r ← rd R.inv_W (j * R.n / doubled_m)
        R.gsSimpleStepV rb w pkt mem r j m doubled_m H)
      gsSimpleStagesV input_len fuel (m / 2) H
    else .ok (m, H)

/-- the butterflies of `fft_inv(Buffers&, Buffers&)` (fft_2n.h:525-553) -/
def fftInvBodyV (input : Array Nat) (H : Heap) : Res Heap := do
  let H ← copyInH pkt mem input H
  let (m, H) ← (if input.size < R.n then do
      let p2 ← Arith.ceil2 32 input.size
      let H ← forStep input.size p2 1 H (fun i H => do
        let d ← rd mem i
        Heap.fill H d pkt 0)
      R.gsSimpleStagesV rb w pkt mem input.size (R.n + 1) (R.n / 2) H
    else pure (R.n / 2, H))
  R.gsStagesV rb w pkt mem (R.n + 1) m H

/-- `fft_inv(Buffers&, Buffers&)` (fft_2n.h:515-561) -/
def fftInvV (input : Array Nat) (H : Heap) : Res (Array Nat × Heap) := do
  let mem ← R.bit_rev_permute mem
  let H ← R.fftInvBodyV rb w pkt mem input H
  let mem ← R.bit_rev_permute mem
  pure (mem, H)

/-- `ifft(Buffers&, Buffers&)` (fft_2n.h:630-639) -/
def ifftV (input : Array Nat) (H : Heap) : Res (Array Nat × Heap) := do
  let (mem, H) ← R.fftInvV rb w pkt mem input H
  let H ← forN mem.size H (fun i H => do
    let d ← rd mem i
    Simd.mulCoef rb w R.F R.inv_n d d pkt H)
  pure (mem, H)

/-- a vectorised `Radix2<T>` object with packets of `pkt` words -/
def fthV : FTH where
  fft := R.fftV rb w pkt
  fft_inv := R.fftInvV rb w pkt
  ifft := R.ifftV rb w pkt

end Radix2

namespace Simd
variable (R w : Nat)

/-- the loop of `add_props` (simd_fnt.h:202-207): `d` is the mask, its lowest set
bit is taken in each turn.  The fuel is at least the number of bits. -/
def propsLoop (offset : Nat) : Nat → Nat → Properties → Res Properties
  | 0, _, _ => .error .diverges
  | fuel + 1, d, P =>
    if d > 0 then
      let byte_idx := ctz d
      propsLoop offset fuel (d ^^^ 2 ^ byte_idx) (P.add (offset + byte_idx / w) OOR_MARK)
    else .ok P
where
  /-- `__builtin_ctz` -/
  ctz (d : Nat) : Nat := (List.range 32).findIdx (fun i => d.testBit i)

/-- `add_props` (simd_fnt.h:189-210) -/
def add_props (P : Properties) (threshold mask symb : Reg) (offset : Nat) : Res Properties :=
  let b := compare_eq w threshold symb
  let c := bit_and mask b
  propsLoop w offset (R + 1) (msb8_mask R c) P

/-- one register of `encode_post_process` (simd_radix2_fft.h:483-488) -/
def postVec (threshold chunk offset : Nat) (H : Heap) (vec_id : Nat) (P : Properties) : Res Properties := do
  let thr := set_one w threshold
  let mask := set_one w (2 ^ (8 * w - 1))
  let a ← loadReg R w H chunk vec_id
  if !and_is_zero R a thr then add_props R w P thr mask a (offset + vec_id * ratio R w) else pure P

/-- `RsFnt<T>::encode_post_process` (fec_vectorisation.cpp:45-95,
simd_radix2_fft.h:435-491), one fragment after the other: the vectorised part of
all fragments is done first in the code, but each fragment has its own
properties.  The loop over registers is unrolled four times in the code; the
turns are in the same order. -/
def encode_post_process (B : FecBase) (output : Bufs) (props : Array Properties) (offset : Nat) (H : Heap) :
    Res (Array Properties) :=
  let thres := B.F.card - 1
  let vl := B.pkt_size / ratio R w
  forN B.n_outputs props (fun i props => do
    let chunk ← rd output.mem i
    let P ← rd props i
    let P ← forN vl P (fun v P => postVec R w thres chunk offset H v P)
    let P ← forStep (vl * ratio R w) B.pkt_size 1 P (fun j P => do
      let v ← Heap.rdEl H chunk j
      if v = thres then pure (P.add (offset + j) OOR_MARK) else pure P)
    wr props i P)

end Simd

/-- the build with registers of `rb` bytes: `Radix2<T>` and `RingModN<T>` with `T` of `w` bytes -/
def Build.simd (rb w : Nat) : Build where
  fth R pkt := R.fthV rb w pkt
  mulv := Simd.mul_vec_to_vecp rb w
  negv := Simd.negBufs rb w
  post := Simd.encode_post_process rb w

/-- The functions of a build for `T` of `b` bits: only `uint16_t` and `uint32_t`
have specialisations.  `none` stands for a build without `QUADIRON_USE_SIMD`,
`some 16` for SSE4.1 and `some 32` for AVX2. -/
def Build.of (simd : Option Nat) (b : Nat) : Build :=
  match simd with
  | none => .scalar
  | some rb => if b = 16 ∨ b = 32 then .simd rb (b / 8) else .scalar

end Quad
