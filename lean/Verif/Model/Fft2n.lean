import Verif.Model.Field

/-!
# Model of src/fft_2n.h (radix-2 transform) and src/fft_base.h

The transform works on a vector of field words (`vec::Vector<T>`) or on a
vector of packets (`vec::Buffers<T>`).  A `Cell` gives the butterfly on two
elements of either kind, so that the loops over elements are written once.
A `Buffers` object is the array of its packets: distinct indices are distinct
memory blocks, and `Buffers::swap`, which exchanges two pointers, exchanges two
entries.
-/

namespace Quad

/-- The element-level work of the butterfly functions. -/
structure Cell (β : Type) where
  /-- Cooley-Tukey: `(a, b) ↦ (a + r*b, a - r*b)` -/
  ct : Nat → β → β → Res (β × β)
  /-- Gentleman-Sande: `(a, b) ↦ (a + b, r*(a - b))` -/
  gs : Nat → β → β → Res (β × β)
  /-- simplified Gentleman-Sande: new `b = r*a` -/
  gsSimple : Nat → β → β → Res β
  /-- multiplication of one element by the scalar in place (`mul_scalar`,
  `mul_vec_to_vecp`) -/
  scale : Nat → β → Res β
  /-- the element written by `memset(.., 0, ..)` / `set(i, 0)` -/
  zero : β

/-- elements are field words: inner statements of `fft(Vector)` (fft_2n.h:300-303),
`fft_inv(Vector)` (fft_2n.h:332-335), `mul_scalar` (vec_vector.h:282-287) -/
def wordCell (F : GF) : Cell Nat where
  ct := fun r a b => let x := F.mul r b; .ok (F.add a x, F.sub a x)
  gs := fun r a b => .ok (F.add a b, F.mul r (F.sub a b))
  gsSimple := fun r a _ => .ok (F.mul r a)
  scale := fun s a => .ok (F.mul a s)
  zero := 0

/-- elements are packets of `pkt` words.
`ct`: fft_2n.h:497-501; `gs`: fft_2n.h:605-609; `gsSimple`: fft_2n.h:625-627;
`scale`: `mul_vec_to_vecp` with source = destination (gf_ring.h:386-399) -/
def pktCell (F : GF) (pkt : Nat) : Cell (Array Nat) where
  ct := fun r a b => forN pkt (a, b) (fun j (s : Array Nat × Array Nat) => do
    let bj ← rd s.2 j
    let aj ← rd s.1 j
    let x := F.mul r bj
    let b' ← wr s.2 j (F.sub aj x)
    let a' ← wr s.1 j (F.add aj x)
    pure (a', b'))
  gs := fun r a b => forN pkt (a, b) (fun j (s : Array Nat × Array Nat) => do
    let aj ← rd s.1 j
    let bj ← rd s.2 j
    let x := F.sub aj bj
    let a' ← wr s.1 j (F.add aj bj)
    let b' ← wr s.2 j (F.mul r x)
    pure (a', b'))
  gsSimple := fun r a b => forN pkt b (fun j b => do
    let aj ← rd a j
    wr b j (F.mul r aj))
  scale := fun c a =>
    if c > 1 ∧ c < F.cardM1 then forN pkt a (fun j a => do
      let aj ← rd a j
      wr a j (F.mul c aj))
    else if c = 1 then .ok a
    else if c = 0 then forN pkt a (fun j a => wr a j 0)
    else if c = F.cardM1 then forN pkt a (fun j a => do
      let aj ← rd a j
      wr a j (F.sub 0 aj))
    else .ok a
  zero := Array.replicate pkt 0

/-- loop of `reverse_bitwise` (fft_2n.h:54-59).  The first turn shifts the value
0 by `bit_len - 1 - bit_num = 2^32 - 1`, which C++ leaves undefined; the model
gives it the value 0. -/
def revLoop (x bit_len : Nat) : Nat → Nat → Nat → Nat → Nat
  | 0, _, _, res => res
  | fuel + 1, mask, bit_num, res =>
    if mask > 0 then
      let bit := ((x &&& mask) >>> bit_num) % 256
      let res := res ||| (if bit_num < bit_len then bit <<< (bit_len - 1 - bit_num) else 0)
      revLoop x bit_len fuel (mask >>> 1) (bit_num - 1) res
    else res

/-- `reverse_bitwise` (fft_2n.h:49-62) -/
def reverse_bitwise (x len bit_len : Nat) : Nat := revLoop x bit_len (bit_len + 2) len bit_len 0

/-- A `Radix2<T>` object (fft_2n.h:145-161) with its base class members
(fft_base.h:87-90) -/
structure Radix2 where
  F : GF
  n : Nat
  data_len : Nat
  inv_n : Nat
  w : Nat
  inv_w : Nat
  W : Array Nat
  inv_W : Array Nat
  rev : Array Nat

namespace Radix2

/-- `init_bitrev` (fft_2n.h:210-220) -/
def init_bitrev (n : Nat) (rev : Array Nat) : Res (Array Nat) := do
  let log_n ← Arith.log2 n
  forN n rev (fun i rev => wr rev i (reverse_bitwise i n log_n))

/-- constructor (fft_base.h:95-111, fft_2n.h:175-208), `n` and `data_len`
converted from `int` -/
def mk' (F : GF) (n data_len : Nat) : Res Radix2 := do
  let inv_n ← F.invN n
  cassert (decide (n ≥ data_len))
  if n = 0 then ub
  else if (F.p - 1) % n ≠ 0 then .error (.throws .invalidArgument)
  else do
    let w ← F.nthRoot n
    let inv_w ← F.inv w
    let W ← F.computeOmegas (Array.replicate n 0) n w
    let inv_W ← F.computeOmegas (Array.replicate n 0) n inv_w
    let rev ← init_bitrev n (Array.replicate n 0)
    pure { F := F, n := n, data_len := if data_len > 0 then data_len else n, inv_n := inv_n,
           w := w, inv_w := inv_w, W := W, inv_W := inv_W, rev := rev }

variable (R : Radix2) {β : Type} (C : Cell β)

/-- `vec.swap(i, j)` (vec_vector.h:456-461, vec_buffers.h:472-478) -/
def swap (a : Array β) (i j : Nat) : Res (Array β) := do
  let x ← rd a i
  let y ← rd a j
  let a ← wr a i y
  wr a j x

/-- `bit_rev_permute` (fft_2n.h:222-241) -/
def bit_rev_permute (a : Array β) : Res (Array β) :=
  forN R.n a (fun i a => do
    let r ← rd R.rev i
    if r < i then swap a i r else pure a)

/-- `for (i = from; i < from + len; i++) out[i] = x` (fft_2n.h:280-283, 288-291) -/
def fillRange (a : Array β) (start len : Nat) (x : β) : Res (Array β) :=
  forN len a (fun t a => wr a (start + t) x)

/-- group length of `fft` (fft_2n.h:273-275, 369-371) -/
def groupLen (input_len : Nat) : Res Nat :=
  let d := if input_len > R.data_len then input_len else R.data_len
  if d = 0 then ub else .ok (R.n / d)

/-- bit-reversed copy of the input into groups (fft_2n.h:276-292, 376-388) -/
def scatter (g : Nat) (out input : Array β) : Res (Array β) := do
  let out ← forN input.size out (fun idx out => do
    let a ← rd input idx
    let r ← rd R.rev idx
    fillRange out r g a)
  forStep input.size R.data_len 1 out (fun idx out => do
    let r ← rd R.rev idx
    fillRange out r g C.zero)

/-- one butterfly between `i` and `i + m` (fft_2n.h:299-303, 493-501) -/
def ctPair (r m : Nat) (i : Nat) (a : Array β) : Res (Array β) := do
  let x ← rd a i
  let y ← rd a (i + m)
  let (x', y') ← C.ct r x y
  let a ← wr a i x'
  wr a (i + m) y'

/-- one Gentleman-Sande butterfly (fft_2n.h:331-336, 601-609) -/
def gsPair (r m : Nat) (i : Nat) (a : Array β) : Res (Array β) := do
  let x ← rd a i
  let y ← rd a (i + m)
  let (x', y') ← C.gs r x y
  let a ← wr a i x'
  wr a (i + m) y'

/-- one simplified butterfly (fft_2n.h:621-627) -/
def gsSimplePair (r m : Nat) (i : Nat) (a : Array β) : Res (Array β) := do
  let x ← rd a i
  let y ← rd a (i + m)
  let y' ← C.gsSimple r x y
  wr a (i + m) y'

/-- one stage of `fft(Vector)` (fft_2n.h:294-306): all `j < m`, all
`i = j, j + 2m, ...` -/
def ctStage (m : Nat) (a : Array β) : Res (Array β) :=
  let doubled_m := 2 * m
  let ratio := R.n / doubled_m
  forN m a (fun j a => do
    let r ← rd R.W (j * ratio)
    forStep j R.n doubled_m a (fun i a => ctPair C r m i a))

/-- `for (m = group_len; m < len; m *= 2)` (fft_2n.h:294); `fuel` bounds the
number of stages (with `m = 0` the C++ loop does not end) -/
def ctStages : Nat → Nat → Array β → Res (Array β)
  | 0, _, _ => .error .diverges
  | fuel + 1, m, a =>
    if m < R.n then do
      let a ← R.ctStage C m a
      ctStages fuel (2 * m) a
    else .ok a

/-- `fft(Vector&, Vector&)` (fft_2n.h:268-308) -/
def fftG (out input : Array β) : Res (Array β) := do
  let g ← R.groupLen input.size
  let out ← R.scatter C g out input
  R.ctStages C (R.n + 1) g out

/-- one stage of `fft_inv` (fft_2n.h:325-337, 546-553) -/
def gsStage (m : Nat) (a : Array β) : Res (Array β) :=
  let doubled_m := 2 * m
  forN m a (fun j a => do
    let r ← rd R.inv_W (j * R.n / doubled_m)
    forStep j R.n doubled_m a (fun i a => gsPair C r m i a))

/-- `for (; m >= 1; m /= 2)` (fft_2n.h:325, 546) -/
def gsStages : Nat → Nat → Array β → Res (Array β)
  | 0, _, _ => .error .diverges
  | fuel + 1, m, a =>
    if m ≥ 1 then do
      let a ← R.gsStage C m a
      gsStages fuel (m / 2) a
    else .ok a

/-- `output.copy(&input)` (vec_vector.h:371-376) and the `memcpy` loop of
fft_2n.h:527-530; copying past the end of the output is undefined -/
def copyIn (out input : Array β) : Res (Array β) :=
  forN input.size out (fun i out => do
    let x ← rd input i
    wr out i x)

/-- `fft_inv(Vector&, Vector&)` (fft_2n.h:320-342) -/
def fft_inv (out input : Array Nat) : Res (Array Nat) := do
  let out ← copyIn out input
  let out ← R.gsStages (wordCell R.F) (R.n + 1) (R.n / 2) out
  R.bit_rev_permute out

/-- multiplication of every element by `inv_n_mod_p` (fft_2n.h:352, 638) -/
def scaleAll (out : Array β) : Res (Array β) :=
  forN out.size out (fun i out => do
    let x ← rd out i
    let y ← C.scale R.inv_n x
    wr out i y)

/-- `fft(Vector&, Vector&)` -/
def fft (out input : Array Nat) : Res (Array Nat) := R.fftG (wordCell R.F) out input

/-- `ifft(Vector&, Vector&)` (fft_2n.h:344-353) -/
def ifft (out input : Array Nat) : Res (Array Nat) := do
  let out ← R.fft_inv out input
  R.scaleAll (wordCell R.F) out

/-! ### Buffers -/

/-- `butterfly_ct_step_slow` over all `i = start, start + step, ...`
(fft_2n.h:482-503) -/
def ctStep (r start m step : Nat) (a : Array β) : Res (Array β) :=
  forStep start R.n step a (fun i a => ctPair C r m i a)

/-- `butterfly_ct_two_layers_step_slow` (fft_2n.h:455-480) -/
def ctTwoLayers (start m : Nat) (a : Array β) : Res (Array β) := do
  let step := 4 * m
  let r1 ← rd R.W (start * R.n / m / 2)
  let a ← R.ctStep C r1 start m step a
  let a ← R.ctStep C r1 (start + 2 * m) m step a
  let r2 ← rd R.W (start * R.n / m / 4)
  let a ← R.ctStep C r2 start (2 * m) step a
  let r3 ← rd R.W ((start + m) * R.n / m / 4)
  R.ctStep C r3 (start + m) (2 * m) step a

/-- `for (; m < end; m <<= 2)` (fft_2n.h:395-399); returns the final `m` too -/
def ctTwoStages : Nat → Nat → Array β → Res (Nat × Array β)
  | 0, _, _ => .error .diverges
  | fuel + 1, m, a =>
    if m < R.n / 2 then do
      let a ← forN m a (fun j a => R.ctTwoLayers C j m a)
      ctTwoStages fuel (4 * m) a
    else .ok (m, a)

/-- `fft(Buffers&, Buffers&)` (fft_2n.h:360-408) -/
def fftBufG (out input : Array β) : Res (Array β) := do
  cassert (decide (input.size > 0))
  cassert (decide (R.data_len > 0))
  let g ← R.groupLen input.size
  let out ← R.scatter C g out input
  let (m, out) ← R.ctTwoStages C (R.n + 1) g out
  if m < R.n then do
    cassert (decide (m = R.n / 2))
    forN m out (fun j a => do
      let r ← rd R.W j
      R.ctStep C r j m R.n a)
  else pure out

/-- the simplified stages (fft_2n.h:538-545); returns the final `m` too -/
def gsSimpleStages (input_len : Nat) : Nat → Nat → Array β → Res (Nat × Array β)
  | 0, _, _ => .error .diverges
  | fuel + 1, m, a =>
    if m ≥ input_len then do
      let doubled_m := 2 * m
      let a ← forN m a (fun j a => do
        let r ← rd R.inv_W (j * R.n / doubled_m)
        forStep j R.n doubled_m a (fun i a => gsSimplePair C r m i a))
      gsSimpleStages input_len fuel (m / 2) a
    else .ok (m, a)

/-- `fft_inv(Buffers&, Buffers&)` (fft_2n.h:515-561) -/
def fftInvBufG (out input : Array β) : Res (Array β) := do
  let out ← R.bit_rev_permute out
  let out ← copyIn out input
  let (m, out) ← (if input.size < R.n then do
      let p2 ← Arith.ceil2 32 input.size
      let out ← forStep input.size p2 1 out (fun i out => wr out i C.zero)
      R.gsSimpleStages C input.size (R.n + 1) (R.n / 2) out
    else pure (R.n / 2, out))
  let out ← R.gsStages C (R.n + 1) m out
  R.bit_rev_permute out

/-- `ifft(Buffers&, Buffers&)` (fft_2n.h:630-639) -/
def ifftBufG (out input : Array β) : Res (Array β) := do
  let out ← R.fftInvBufG C out input
  R.scaleAll C out

end Radix2
end Quad
