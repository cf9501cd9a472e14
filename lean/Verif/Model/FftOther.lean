import Verif.Model.Fec
import Verif.Model.Matrix

/-!
# Model of src/fft_2.h, src/fft_single.h, src/fft_naive.h, src/fft_ct.h, src/fft_gt.h and
src/fft_large.h

A `vec::View<T>` passed to a transform is modelled by its elements: the elements of the source view
are read, the transform runs on plain arrays, and its result is stored through the destination
view.  This is what the C++ does, because the transforms called on views (Size2, Naive and
Cooley-Tukey) access them by `get` and `set` only, and source and destination never share memory.
The asserts of `View::set_len` and `View::set_vec` are not modelled; they hold when both vectors
have `n` elements, which the theorems assume.
The work vector `G` keeps its contents between calls; the model starts every call with arbitrary
contents `mem`.
-/

namespace Quad

/-- `Vector::mul_scalar` (vec_vector.h:282-287) -/
def mulScalar (F : GF) (a : Array Nat) (scalar : Nat) : Res (Array Nat) :=
  forN a.size a (fun i a => do
    let x ← rd a i
    wr a i (F.mul x scalar))

/-- the tail of `ifft`: `if (inv_n_mod_p > 1) output.mul_scalar(inv_n_mod_p)` (fft_2.h:90-91,
fft_naive.h:141-142, fft_ct.h:274-276, fft_gt.h:280-282, fft_large.h:240-241) -/
def scaleIf (F : GF) (inv_n : Nat) (a : Array Nat) : Res (Array Nat) :=
  if inv_n > 1 then mulScalar F a inv_n else pure a

/-- `mul_vec_to_vecp(*vec_inv_n, output, output)` (gf_ring.h:374-401) on the `n` packets -/
def scalePkts (F : GF) (n inv_n : Nat) (out : Array (Array Nat)) : Res (Array (Array Nat)) :=
  forN n out (fun i out => do
    let b ← rd out i
    let b ← (pktCell F b.size).scale inv_n b
    wr out i b)

/-- the length that the constructor of the base class gets (fft_base.h:95-107): its parameter is an `int`, so that a longer length of type `T`
(fft_ct.h:132, fft_gt.h:147, and the factor in fft_ct.h:153, fft_gt.h:172) is taken modulo `2^32`.  For a negative length the vector `vec_inv_n`
asks for nearly `2^64` bytes, which no system has; the inverse taken before that (fft_base.h:103) is not modelled in this case. -/
def intLen (n : Nat) : Res Nat := if n % 2 ^ 32 < 2 ^ 31 then .ok (n % 2 ^ 32) else .error (.throws .badAlloc)

/-! ## Size2 -/

namespace Size2

/-- `fft(Vector)` (fft_2.h:66-73) -/
def fft (F : GF) (out input : Array Nat) : Res (Array Nat) := do
  let a ← rd input 0
  let b ← rd input 1
  let out ← wr out 0 (F.add a b)
  wr out 1 (F.sub a b)

/-- `fft(Buffers)` (fft_2.h:94-101): `output.copy(input)`, then `add_two_bufs` and `sub_two_bufs`
(gf_ring.h:403-435) -/
def fftB (F : GF) (out input : Array (Array Nat)) : Res (Array (Array Nat)) := do
  let out ← forN input.size out (fun i out => do
    let x ← rd input i
    wr out i x)
  let a ← rd input 0
  let b ← rd input 1
  let o0 ← rd out 0
  let o0 ← forN b.size o0 (fun j o => do
    let x ← rd b j
    let y ← rd o j
    wr o j (F.add x y))
  let out ← wr out 0 o0
  let o1 ← rd out 1
  let o1 ← forN a.size o1 (fun j o => do
    let x ← rd a j
    let y ← rd o j
    wr o j (F.sub x y))
  wr out 1 o1

/-- the constructor (fft_2.h:61-64, fft_base.h:95-111) and the vtable: `fft_inv` (fft_2.h:80-84,
108-112) calls `fft`, `ifft` (fft_2.h:86-92, 114-120) scales when `inv_n_mod_p > 1` -/
def mk' (F : GF) : Res FT := do
  let inv_n ← F.invN 2
  pure {
    n := 2
    fft := fft F
    fft_inv := fft F
    ifft := fun out input => do
      let out ← fft F out input
      scaleIf F inv_n out
    fftB := fftB F
    fft_invB := fftB F
    ifftB := fun out input => do
      let out ← fftB F out input
      if inv_n > 1 then scalePkts F 2 inv_n out else pure out }

end Size2

/-! ## Single -/

namespace Single

/-- `fft(Vector)` (fft_single.h:64-69); `Vector::fill` (vec_vector.h:239-245) writes all `n` words of
the memory -/
def fft (out input : Array Nat) : Res (Array Nat) := do
  let val ← rd input 0
  forN out.size out (fun i out => wr out i val)

/-- `ifft(Vector)` (fft_single.h:82-87) -/
def ifft (out input : Array Nat) : Res (Array Nat) := do
  let out ← forN out.size out (fun i out => wr out i 0)
  let x ← rd input 0
  wr out 0 x

/-- `fft(Buffers)` (fft_single.h:89-95) -/
def fftB (n : Nat) (out input : Array (Array Nat)) : Res (Array (Array Nat)) := do
  let buf ← rd input 0
  forN n out (fun i out => wr out i buf)

/-- `ifft(Buffers)` (fft_single.h:108-113) -/
def ifftB (out input : Array (Array Nat)) : Res (Array (Array Nat)) := do
  let out ← forN out.size out (fun i out => do
    let b ← rd out i
    wr out i (Array.replicate b.size 0))
  let x ← rd input 0
  wr out 0 x

/-- the constructor (fft_single.h:59-62, fft_base.h:95-111) and the vtable -/
def mk' (F : GF) (n : Nat) : Res FT := do
  let _ ← F.invN n
  pure { n := n, fft := fft, fft_inv := fft, ifft := ifft,
         fftB := fftB n, fft_invB := fftB n, ifftB := ifftB }

end Single

/-! ## Naive -/

namespace Naive

/-- `compute_W` (fft_naive.h:100-109).  The product `i * j` is an `int`: overflow is undefined. -/
def compute_W (F : GF) (n : Nat) (W : Mat) (w : Nat) : Res Mat :=
  forN n W (fun i W => forN n W (fun j W =>
    if i * j < 2 ^ 31 then W.set i j (F.exp w ((i * j) % n)) else ub))

/-- `_fft(Buffers)` (fft_naive.h:145-164); `size` is the member `pkt_size` -/
def fftB (F : GF) (n size : Nat) (W : Mat) (out input : Array (Array Nat)) : Res (Array (Array Nat)) :=
  forN n out (fun i out => do
    let b ← rd out i
    let b ← forN n (Array.replicate b.size 0) (fun j b => do
      let ibuf ← rd input j
      let r ← W.get i j
      forN size b (fun u b => do
        let x ← rd b u
        let y ← rd ibuf u
        wr b u (F.add x (F.mul r y))))
    wr out i b)

/-- the vtable: `fft` multiplies by `W` (fft_naive.h:111-124, 171-175), `fft_inv` by `inv_W`
(fft_naive.h:131-135, 182-186), `ifft` (fft_naive.h:137-143, 187-194) scales after that -/
def ft (F : GF) (n pkt_size inv_n : Nat) (W inv_W : Mat) : FT where
  n := n
  fft := fun out input => W.mul F out input
  fft_inv := fun out input => inv_W.mul F out input
  ifft := fun out input => do
    let out ← inv_W.mul F out input
    scaleIf F inv_n out
  fftB := fftB F n pkt_size W
  fft_invB := fftB F n pkt_size inv_W
  ifftB := fun out input => do
    let out ← fftB F n pkt_size inv_W out input
    scalePkts F n inv_n out

/-- the constructor (fft_naive.h:73-85, fft_base.h:95-111) -/
def mk' (F : GF) (n w pkt_size : Nat) (mem : Nat → Nat) : Res FT := do
  let n ← intLen n
  let inv_n ← F.invN n
  let inv_w ← F.inv w
  let W ← compute_W F n (Mat.mk' n n mem) w
  let inv_W ← compute_W F n (Mat.mk' n n mem) inv_w
  pure (ft F n pkt_size inv_n W inv_W)

end Naive

/-! ## Views -/

/-- the position of element `i` of a view (vec_view.h:91-98, 123-130).  `offset + step * i` is an
`int`: overflow is undefined. -/
def viewLoc (offset step N i : Nat) : Res Nat :=
  if offset + step * i < 2 ^ 31 then .ok ((offset + step * i) % N) else ub

/-- the `len` elements of a view of `v` -/
def gather (v : Array Nat) (offset step len : Nat) : Res (Array Nat) :=
  forN len (Array.replicate len 0) (fun i a => do
    let loc ← viewLoc offset step v.size i
    let x ← rd v loc
    wr a i x)

/-- storing the `len` elements `a` through a view of `v` -/
def scatter (v : Array Nat) (offset step len : Nat) (a : Array Nat) : Res (Array Nat) :=
  forN len v (fun i v => do
    let loc ← viewLoc offset step v.size i
    let x ← rd a i
    wr v loc x)

/-- `f(*Y, *X)` with `X` a view of `src` and `Y` a view of `dst`, both of length `len` -/
def viaViews (f : Array Nat → Array Nat → Res (Array Nat)) (len : Nat) (dst : Array Nat) (doff dstep : Nat)
    (src : Array Nat) (soff sstep : Nat) : Res (Array Nat) := do
  let x ← gather src soff sstep len
  let y ← gather dst doff dstep len
  let z ← f y x
  scatter dst doff dstep len z

/-- the vtable of the transforms that work on vectors only: `ifft` (fft_ct.h:267-279,
fft_gt.h:274-285, fft_large.h:235-242) is `fft_inv` followed, in the first layer, by the scaling; the
functions on `Buffers` do nothing (fft_base.h:62-73, fft_large.h:244-262) -/
def vecFT (F : GF) (n : Nat) (first : Bool) (inv_n : Nat) (fft fft_inv : Array Nat → Array Nat → Res (Array Nat)) : FT where
  n := n
  fft := fft
  fft_inv := fft_inv
  ifft := fun out input => do
    let out ← fft_inv out input
    if first then scaleIf F inv_n out else pure out
  fftB := fun out _ => pure out
  fft_invB := fun out _ => pure out
  ifftB := fun out _ => pure out

/-! ## Cooley-Tukey -/

namespace CooleyTukey

/-- `mul_twiddle_factors` (fft_ct.h:188-209), `_w` being `w` or `inv_w` -/
def mul_twiddle_factors (F : GF) (n1 n2 w : Nat) (G : Array Nat) : Res (Array Nat) := do
  let s ← forStep 1 n1 1 (G, 1) (fun i1 s => do
    let base := F.mul s.2 w
    let t ← forStep 1 n2 1 (s.1, base) (fun k2 t => do
      let loc := i1 + n1 * k2
      let x ← rd t.1 loc
      let G ← wr t.1 loc (F.mul x t.2)
      pure (G, F.mul t.2 base))
    pure (t.1, base))
  pure s.1

/-- `_fft` (fft_ct.h:211-247) with the transforms and the root chosen by `inv` -/
def layer (F : GF) (n1 n2 w : Nat) (inner outer : Array Nat → Array Nat → Res (Array Nat)) (G out input : Array Nat) :
    Res (Array Nat) := do
  let G ← forN n1 G (fun i1 G => viaViews inner n2 G i1 n1 input i1 n1)
  let G ← mul_twiddle_factors F n1 n2 w G
  forN n2 out (fun k2 out => viaViews outer n1 out k2 n2 G (k2 * n1) 1)

/-- the transform on `n1` elements of a layer (fft_ct.h:149-154, fft_gt.h:168-173) -/
def outer (F : GF) (n1 w1 : Nat) (mem : Nat → Nat) : Res FT :=
  if n1 = 2 then Size2.mk' F else Naive.mk' F n1 w1 0 mem

/-- the constructor of a layer (fft_ct.h:126-171, fft_base.h:95-111).  The list is
`prime_factors` from position `id` on: reading past its end is undefined. -/
def build (F : GF) (mem : Nat → Nat) : Bool → List Nat → Nat → Nat → Res FT
  | _, [], n, w => do
    let len ← intLen n
    let _ ← F.invN len
    let _ ← F.inv w
    ub
  | first, n1 :: fs, n, w => do
    let len ← intLen n
    let inv_n ← F.invN len
    let inv_w ← F.inv w
    if n1 = 0 then ub
    else do
      let n2 := n / n1
      let w1 := F.exp w n2
      let o ← outer F n1 w1 mem
      let t ← (if n2 > 1 then do
          let w2 := F.exp w n1
          let i ← build F mem false fs n2 w2
          pure (layer F n1 n2 w i.fft o.fft (fresh mem len), layer F n1 n2 inv_w i.fft_inv o.fft_inv (fresh mem len))
        else pure (o.fft, o.fft_inv))
      pure (vecFT F len first inv_n t.1 t.2)

/-- `CooleyTukey(gf, n)` (fft_ct.h:126-171) for words of `b` bits -/
def mk' (F : GF) (b n : Nat) (mem : Nat → Nat) : Res FT := do
  let fs ← Arith.get_prime_factors b n
  let w ← F.nthRoot n
  build F mem true fs n w

end CooleyTukey

/-! ## Good-Thomas -/

namespace GoodThomas

/-- `_inverse_mod` (fft_gt.h:211-219): `left` values from `mod - left` on remain to be tried -/
def inverseLoop (nb mod : Nat) : Nat → Nat
  | 0 => 0
  | left + 1 => if ((mod - (left + 1)) * nb) % mod = 1 then mod - (left + 1) else inverseLoop nb mod left

/-- `_inverse_mod` (fft_gt.h:211-219).  The products are below `nb * mod`, which is the length of
the transform, so they do not wrap. -/
def inverse_mod (nb mod : Nat) : Nat := inverseLoop nb mod (mod - 1)

/-- `_fft` (fft_gt.h:221-254) for words of `b` bits: `d * k2` wraps -/
def layer (b n n1 n2 : Nat) (inner outer : Array Nat → Array Nat → Res (Array Nat)) (G out input : Array Nat) :
    Res (Array Nat) := do
  let c := n2 * inverse_mod n2 n1
  let d := n1 * inverse_mod n1 n2
  let G ← forN n1 G (fun i1 G => viaViews inner n2 G i1 n1 input ((n2 * i1) % n) n1)
  forN n2 out (fun k2 out => viaViews outer n1 out (wrap b (d * k2) % n) c G (k2 * n1) 1)

/-- `GoodThomas(gf, n)` (fft_gt.h:141-190) for words of `b` bits.
An inner transform of a power of two length would be a Radix2 (fft_gt.h:179-180), whose `fft_inv`
does not go through the views; the theorems show that this branch is never taken, and the model makes
it undefined. -/
def mk' (F : GF) (b n : Nat) (mem : Nat → Nat) : Res FT := do
  let len ← intLen n
  let inv_n ← F.invN len
  let fs ← Arith.get_coprime_factors b n
  let w ← F.nthRoot n
  match fs with
  | [] => ub
  | n1 :: fs =>
    if n1 = 0 then ub
    else do
      let n2 := n / n1
      let w1 := F.exp w n2
      let o ← CooleyTukey.outer F n1 w1 mem
      let t ← (if n2 > 1 then do
          let w2 := F.exp w n1
          if Arith.is_power_of_2 n2 then ub
          else do
            let i ← CooleyTukey.build F mem false fs n2 w2
            pure (layer b len n1 n2 i.fft o.fft (fresh mem len), layer b len n1 n2 i.fft_inv o.fft_inv (fresh mem len))
        else pure (o.fft, o.fft_inv))
      pure (vecFT F len true inv_n t.1 t.2)

end GoodThomas

/-! ## Large -/

namespace Large

/-- the loop of `_get_p` (fft_large.h:115-128); `x` is halved at each turn -/
def getPLoop (j : Nat) : Nat → Nat → Nat → Nat
  | 0, _, _ => 0
  | fuel + 1, x, y =>
    if y = j then (if x % 2 = 1 then 1 else 0)
    else if x / 2 ≠ 0 then getPLoop j fuel (x / 2) (y + 1)
    else 0

/-- `_get_p` (fft_large.h:109-129) -/
def get_p (n l i j : Nat) : Res Nat := do
  cassert (decide (i ≤ n - 1))
  cassert (decide (1 ≤ j ∧ j ≤ l))
  pure (getPLoop j (i + 1) i 1)

/-- `_get_p0` (fft_large.h:134-141) -/
def get_p0 (n l i j s : Nat) : Res Nat := do
  cassert (decide (i ≤ n - 1))
  cassert (decide (1 ≤ j ∧ j ≤ l))
  if j = s then pure 0 else get_p n l i j

/-- `_get_p1` (fft_large.h:146-153) -/
def get_p1 (n l i j s : Nat) : Res Nat := do
  cassert (decide (i ≤ n - 1))
  cassert (decide (1 ≤ j ∧ j ≤ l))
  if j = s then pure 1 else get_p n l i j

/-- the tables `tmp2`, `tmp3`, `tmp4`, `tmp5` -/
structure Consts where
  tmp2 : Mat
  tmp3 : Mat
  tmp4 : Mat
  tmp5 : Array Nat

/-- `_pre_compute_consts` (fft_large.h:155-195); the sums stay below `2^l` and do not wrap.  The
`zero_fill` of the tables is the initial contents here. -/
def pre_compute_consts (n l : Nat) : Res Consts := do
  let z := Mat.mk' (l + 1) n (fun _ => 0)
  let s ← forStep 1 (l + 1) 1 (z, z, z) (fun i s => forN n s (fun j s => do
    let t1 ← forStep 1 (i + 1) 1 0 (fun k acc => do
      let p ← get_p n l j (l - i + k)
      pure (acc + p * 2 ^ (i - k)))
    let t2 ← forStep 1 (l + 1) 1 0 (fun k acc => do
      let p ← get_p0 n l j k (l - i + 1)
      pure (acc + p * 2 ^ (k - 1)))
    let m2 ← s.1.set i j t2
    let t3 ← forStep 1 (l + 1) 1 0 (fun k acc => do
      let p ← get_p1 n l j k (l - i + 1)
      pure (acc + p * 2 ^ (k - 1)))
    let m3 ← s.2.1.set i j t3
    let m4 ← s.2.2.set i j (t1 * 2 ^ (l - i))
    pure (m2, m3, m4)))
  let t5 ← forN n (Array.replicate n 0) (fun i t5 => do
    let t ← forStep 1 (l + 1) 1 0 (fun k acc => do
      let p ← get_p n l i (l - k + 1)
      pure (acc + p * 2 ^ (k - 1)))
    wr t5 i t)
  pure { tmp2 := s.1, tmp3 := s.2.1, tmp4 := s.2.2, tmp5 := t5 }

/-- `_fft` (fft_large.h:197-222).  `DoubleSizeVal<T>` has room for the product and the sum. -/
def fft (F : GF) (n l : Nat) (C : Consts) (W : Array Nat) (mem : Nat → Nat) (out input : Array Nat) : Res (Array Nat) := do
  let phi ← forN n (Mat.mk' (l + 1) n mem) (fun i phi => do
    let x ← rd input i
    phi.set 0 i x)
  let phi ← forStep 1 (l + 1) 1 phi (fun i phi => forN n phi (fun j phi => do
    let t4 ← C.tmp4.get i j
    let r ← rd W t4
    let t3 ← C.tmp3.get i j
    let x ← phi.get (i - 1) t3
    let t2 ← C.tmp2.get i j
    let y ← phi.get (i - 1) t2
    if F.card = 0 then ub else phi.set i j ((r * x + y) % F.card)))
  forN n out (fun i out => do
    let t5 ← rd C.tmp5 i
    let x ← phi.get l t5
    wr out i x)

/-- the constructor (fft_large.h:77-91, fft_base.h:95-111) and the vtable (fft_large.h:230-262) -/
def mk' (F : GF) (l w : Nat) (mem : Nat → Nat) : Res FT := do
  let n := 2 ^ l
  let inv_n ← F.invN n
  let inv_w ← F.inv w
  let W ← F.computeOmegas (fresh mem (n + 1)) n w
  let inv_W ← F.computeOmegas (fresh mem (n + 1)) n inv_w
  let C ← pre_compute_consts n l
  pure (vecFT F n true inv_n (fft F n l C W mem) (fft F n l C inv_W mem))

end Large
end Quad
