import Verif.Model.Fec

/-!
# Model of src/fft_add.h: the additive FFT and Taylor expansions

`vec::Slice` objects share the memory of the vector they are taken from: a slice is an offset and a length in one array.
Sizes and indices of type `int` are naturals.  The members `g0`, `g1`, `u`, `v` and `mem`, which every transform overwrites
before it reads them, are new memory with arbitrary contents `mem` in each call; the functions on `g0` and `g1` that the
class also offers directly take and return them.
-/

namespace Quad

/-- length of `vec::Slice(vec, n, offset)` of a vector of `base_len` elements (vec_slice.h:81-85) -/
def sliceLen (n offset base_len : Nat) : Nat := if n + offset < base_len then n else base_len - offset

/-- the loop of `add_mutual` (vec_vector.h:340-369) and `add` (vec_vector.h:316-335): the `len` elements at `dst` and at
`src` of one memory -/
def addRange (F : GF) (a : Array Nat) (dst src len : Nat) : Res (Array Nat) :=
  forN len a (fun i a => do
    let x ← rd a (dst + i)
    let y ← rd a (src + i)
    wr a (dst + i) (F.add x y))

/-- the same loop when the second vector `v` is separate -/
def addVec (F : GF) (a : Array Nat) (dst : Nat) (v : Array Nat) (src len : Nat) : Res (Array Nat) :=
  forN len a (fun i a => do
    let x ← rd a (dst + i)
    let y ← rd v (src + i)
    wr a (dst + i) (F.add x y))

/-- `copy(v, n, dest_offset, src_offset)` (vec_vector.h:371-417): the elements beyond the end of `v` are zero -/
def vecCopy (a v : Array Nat) (n dst src : Nat) : Res (Array Nat) := do
  cassert (decide (n + dst ≤ a.size))
  forN n a (fun i a => wr a (dst + i) (if src + i < v.size then gt v (src + i) else 0))

namespace Additive

/-! ## Taylor expansions -/

/-- loop of `find_k` (fft_add.h:546-553) -/
def findKLoop (n : Nat) : Nat → Nat → Nat → Nat
  | 0, _, _ => 0
  | fuel + 1, k, t2k => if t2k < n ∧ 2 * t2k ≥ n then k else findKLoop n fuel (k + 1) (t2k * 2)

/-- `find_k` (fft_add.h:542-556) -/
def find_k (n t : Nat) : Res Nat := do
  cassert (decide (t < n))
  pure (findKLoop n n 0 t)

/-- the two additions of `_taylor_expand` (fft_add.h:595-617) and `_taylor_expand_t2` (fft_add.h:451-468) in the vector of
`N` elements at `off` of the memory `a`; `hdeg` is the length of the second one.  The results are the memory and the lengths of
`_g0` and `_g1`. -/
def taylorStep (F : GF) (a : Array Nat) (off N n deg0 deg1 deg2 hdeg : Nat) : Res (Array Nat × Nat × Nat) := do
  let n0 := sliceLen deg0 0 N
  let n1 := sliceLen (n - deg0) deg0 N
  let n2 := sliceLen deg2 (deg0 + deg1) N
  cassert (decide (n1 ≥ n2))
  let a ← addRange F a (off + deg0) (off + (deg0 + deg1)) n2
  cassert (decide (hdeg = 0 ∨ n0 ≥ deg2 + hdeg))
  cassert (decide (n1 ≥ hdeg))
  let a ← addRange F a (off + deg2) (off + deg0) hdeg
  pure (a, n0, n1)

/-- `_taylor_expand_t2` (fft_add.h:445-474) for a word type of `b` bits -/
def taylorT2 (F : GF) (b : Nat) : Nat → Array Nat → Nat → Nat → Nat → Res (Array Nat)
  | 0, a, off, N, n => do
    let deg2 ← Arith.exp2 b 0
    let deg0 := 2 * deg2
    let deg1 := deg0 - deg2
    let (a, _, _) ← taylorStep F a off N n deg0 deg1 deg2 deg1
    pure a
  | k + 1, a, off, N, n => do
    let deg2 ← Arith.exp2 b (k + 1)
    let deg0 := 2 * deg2
    let deg1 := deg0 - deg2
    let (a, n0, n1) ← taylorStep F a off N n deg0 deg1 deg2 deg1
    let a ← taylorT2 F b k a off n0 deg0
    taylorT2 F b k a (off + deg0) n1 (n - deg0)

/-- `taylor_expand_t2` (fft_add.h:403-432): the input and the members `g0` and `g1` after the call -/
def taylor_expand_t2 (F : GF) (b : Nat) (g0 g1 input : Array Nat) (n : Nat) : Res (Array Nat × Array Nat × Array Nat) := do
  cassert (decide (n ≥ 1))
  cassert (decide (input.size ≤ n))
  cassert (Arith.is_power_of_2 n)
  if n ≤ 2 then do
    let x ← rd input 0
    let g0 ← wr g0 0 x
    if n = 2 then do
      let y ← rd input 1
      let g1 ← wr g1 0 y
      pure (input, g0, g1)
    else pure (input, g0, g1)
  else do
    let k ← find_k n 2
    let input ← taylorT2 F b k input 0 input.size n
    let (g0, g1) ← forStep 0 n 2 (g0, g1) (fun i s => do
      let x ← rd input i
      let g0 ← wr s.1 (i / 2) x
      let y ← rd input (i + 1)
      let g1 ← wr s.2 (i / 2) y
      pure (g0, g1))
    pure (input, g0, g1)

/-- `mul_xt_x` (fft_add.h:520-534) -/
def mul_xt_x (F : GF) (v : Array Nat) (t : Nat) : Res (Array Nat) := do
  let n := v.size
  let v ← forN (n - t) v (fun s v => do
    let i := n - 1 - s
    let x ← rd v (i - t)
    let y ← rd v (i - 1)
    wr v i (F.add x y))
  let last := min (n - 1) (t - 1)
  let v ← forN last v (fun s v => do
    let i := last - s
    let x ← rd v (i - 1)
    wr v i x)
  wr v 0 0

/-- `inv_taylor_expand_t2` (fft_add.h:485-517) -/
def inv_taylor_expand_t2 (F : GF) (g0 g1 output : Array Nat) : Res (Array Nat) := do
  cassert (decide (g0.size = g1.size))
  let o_len := output.size
  cassert (Arith.is_power_of_2 o_len)
  if o_len ≤ 2 then do
    let x ← rd g0 0
    let output ← wr output 0 x
    if o_len = 2 then do
      let y ← rd g1 0
      wr output 1 y
    else pure output
  else do
    let output := Array.replicate o_len 0
    let i := o_len / 2 - 1
    let x ← rd g0 i
    let output ← wr output 0 x
    let y ← rd g1 i
    let output ← wr output 1 y
    forN i output (fun s output => do
      let j := i - 1 - s
      let output ← mul_xt_x F output 2
      let x ← rd g0 j
      let output ← wr output 0 x
      let y ← rd g1 j
      if y > 0 then do
        let z ← rd output 1
        wr output 1 (F.add z y)
      else pure output)

/-- `_taylor_expand` (fft_add.h:590-623) on the vector of `N` elements at `off` of the memory `a`, with fuel for the recursion -/
def taylorRec (F : GF) (b t : Nat) : Nat → Array Nat → Nat → Nat → Nat → Res (Array Nat)
  | 0, _, _, _, _ => .error .diverges
  | fuel + 1, a, off, N, n => do
    let k ← find_k n t
    let deg2 ← Arith.exp2 b k
    let deg0 := t * deg2
    let deg1 := deg0 - deg2
    let g1deg := n - deg0
    let hdeg := if g1deg < deg1 then g1deg else deg1
    let (a, n0, n1) ← taylorStep F a off N n deg0 deg1 deg2 hdeg
    let a ← (if deg0 > t then taylorRec F b t fuel a off n0 deg0 else pure a)
    if g1deg > t then taylorRec F b t fuel a (off + deg0) n1 g1deg else pure a

/-- `taylor_expand` (fft_add.h:569-589) -/
def taylor_expand (F : GF) (b : Nat) (output input : Array Nat) (n t : Nat) : Res (Array Nat) := do
  cassert (decide (n ≥ 1))
  cassert (decide (t > 1))
  cassert (decide (input.size ≤ n))
  let output := if output.size > input.size then Array.replicate output.size 0 else output
  let output ← vecCopy output input input.size 0 0
  if n > t then taylorRec F b t n output 0 output.size n else pure output

/-- `inv_taylor_expand` (fft_add.h:636-665) of an object of length `fft_n` -/
def inv_taylor_expand (F : GF) (fft_n : Nat) (output input : Array Nat) (t : Nat) : Res (Array Nat) := do
  let i_len := input.size
  let o_len := output.size
  cassert (decide (o_len ≤ fft_n))
  cassert (decide (i_len ≥ o_len))
  let tmp := Array.replicate i_len 0
  if i_len < t then ub
  else if t = 0 then .error .diverges
  else do
    let i := i_len - t
    let tmp ← addVec F tmp 0 input i t
    let tmp ← forN (i / t) tmp (fun s tmp => do
      let tmp ← mul_xt_x F tmp t
      addVec F tmp 0 input (i - (s + 1) * t) t)
    vecCopy output tmp o_len 0 0

/-! ## The transform -/

/-- the members of `Additive<T>` a constructor sets, apart from `fft_add` (fft_add.h:83-98) -/
structure Level where
  m : Nat
  n : Nat
  m_k : Nat
  betas : Array Nat
  beta_1 : Nat
  inv_beta_1 : Nat
  beta_m : Nat
  inv_beta_m : Nat
  beta_m_powers : Array Nat
  gammas : Array Nat
  deltas : Array Nat
  G : Array Nat
  deriving Inhabited

/-- `compute_beta_m_powers` (fft_add.h:152-164) -/
def compute_beta_m_powers (F : GF) (n beta_m : Nat) (mem : Nat → Nat) : Res (Array Nat) := do
  let P ← wr (fresh mem n) 0 1
  let P ← wr P 1 beta_m
  let (_, P) ← forN (n - 2) (beta_m, P) (fun s st => do
    let beta := F.mul st.1 beta_m
    let P ← wr st.2 (s + 2) beta
    pure (beta, P))
  pure P

/-- `compute_subspace` (fft_add.h:205-237) for a word type of `b` bits -/
def compute_subspace (F : GF) (b : Nat) (basis subspace : Array Nat) (mem : Nat → Nat) : Res (Array Nat) := do
  let dim := basis.size
  let e ← Arith.exp2 b dim
  cassert (decide (subspace.size = e))
  let powers2 ← forN dim (fresh mem dim) (fun i p => do
    let e ← Arith.exp2 b i
    wr p i e)
  let sub ← wr subspace 0 0
  let (_, _, sub) ← forN dim (#[0], 0, sub) (fun i st =>
    let size := 2 ^ i
    forN size st (fun s st => do
      let (ids, val, sub) := st
      let j := size - 1 - s
      let x ← rd ids j
      let p ← rd powers2 i
      let id := F.add x p
      let back ← rd ids (ids.size - 1)
      let diff ← Arith.log2 (F.add id back)
      let y ← rd basis diff
      let val := F.add val y
      let sub ← wr sub id val
      pure (ids.push id, val, sub)))
  pure sub

/-- `compute_basis` (fft_add.h:166-177): `gammas`, `deltas` and `G` -/
def compute_basis (F : GF) (b m beta_m inv_beta_m : Nat) (betas : Array Nat) (mem : Nat → Nat) :
    Res (Array Nat × Array Nat × Array Nat) := do
  let (gammas, deltas) ← forN (m - 1) (fresh mem (m - 1), fresh mem (m - 1)) (fun i s => do
    let x ← rd betas i
    let gamma := if beta_m > 1 then F.mul inv_beta_m x else x
    let g ← wr s.1 i gamma
    let d ← wr s.2 i (F.add (F.exp gamma 2) gamma)
    pure (g, d))
  let e ← Arith.exp2 b (m - 1)
  let G ← compute_subspace F b gammas (fresh mem e) mem
  pure (gammas, deltas, G)

/-- the constructor on a given basis (fft_add.h:101-150): this object and, after it, the chain of `fft_add` objects -/
def mkB (F : GF) (b : Nat) (mem : Nat → Nat) : Nat → Array Nat → Res (List Level)
  | 0, _ => .error .assertFail
  | m + 1, betas => do
    let n ← Arith.exp2 b (m + 1)
    let beta_1 ← rd betas 0
    let inv_beta_1 ← F.inv beta_1
    let beta_m ← rd betas m
    let inv_beta_m ← F.inv beta_m
    let P ← compute_beta_m_powers F n beta_m mem
    let m_k ← Arith.exp2 b m
    if m + 1 > 1 then do
      let (gammas, deltas, G) ← compute_basis F b (m + 1) beta_m inv_beta_m betas mem
      let sub ← mkB F b mem m deltas
      pure ({ m := m + 1, n := n, m_k := m_k, betas := betas, beta_1 := beta_1, inv_beta_1 := inv_beta_1, beta_m := beta_m,
              inv_beta_m := inv_beta_m, beta_m_powers := P, gammas := gammas, deltas := deltas, G := G } :: sub)
    else
      pure [{ m := m + 1, n := n, m_k := m_k, betas := betas, beta_1 := beta_1, inv_beta_1 := inv_beta_1, beta_m := beta_m,
              inv_beta_m := inv_beta_m, beta_m_powers := P, gammas := #[], deltas := #[], G := #[] }]

/-- the default basis (fft_add.h:110-122) on `get_primitive_root()` -/
def defaultBetas (F : GF) (root m : Nat) (mem : Nat → Nat) : Res (Array Nat) := do
  let B ← wr (fresh mem m) 0 root
  let B ← forN (m - 2) B (fun s B => wr B (s + 1) (F.exp root (s + 2)))
  wr B (m - 1) 1

/-- the constructor (fft_add.h:101-150) without basis, over a field of characteristic 2 -/
def mk' (F : GF) (b root m : Nat) (mem : Nat → Nat) : Res (List Level) := do
  cassert (decide (m ≥ 1))
  let betas ← defaultBetas F root m mem
  mkB F b mem m betas

/-- `fft` (fft_add.h:327-340) and `_fft` (fft_add.h:239-264) -/
def fft (F : GF) (b : Nat) (mem : Nat → Nat) : List Level → Array Nat → Array Nat → Res (Array Nat)
  | [], _, _ => ub
  | L :: Ls, output, input =>
    if L.m > 1 then do
      let w ← vecCopy (fresh mem L.n) input L.n 0 0
      let w ← (if L.beta_m > 1 then hadamardMul F w L.beta_m_powers else pure w)
      let (_, g0, g1) ← taylor_expand_t2 F b (fresh mem L.m_k) (fresh mem L.m_k) w L.n
      let u ← fft F b mem Ls (fresh mem L.m_k) g0
      let v ← fft F b mem Ls (fresh mem L.m_k) g1
      let output ← vecCopy output v L.m_k L.m_k 0
      let v ← hadamardMul F v L.G
      cassert (decide (v.size = u.size))
      let v ← addVec F v 0 u 0 v.size
      let output ← vecCopy output v L.m_k 0 0
      cassert (decide (output.size ≥ v.size + L.m_k))
      addVec F output L.m_k v 0 v.size
    else do
      let x ← rd input 0
      let output ← wr output 0 x
      let x ← rd input 0
      let y ← rd input 1
      wr output 1 (F.add x (F.mul y L.beta_1))

/-- `mul_beta` (vec_vector.h:293-301) -/
def mulBeta (F : GF) (a : Array Nat) (beta : Nat) : Res (Array Nat) := do
  let (_, a) ← forN (a.size - 1) (beta, a) (fun s st => do
    let x ← rd st.2 (s + 1)
    let a ← wr st.2 (s + 1) (F.mul x st.1)
    pure (F.mul st.1 beta, a))
  pure a

/-- `fft_inv` (fft_add.h:342-356) and `_ifft` (fft_add.h:266-292); `ifft` (fft_add.h:388-392) calls it -/
def fft_inv (F : GF) (mem : Nat → Nat) : List Level → Array Nat → Array Nat → Res (Array Nat)
  | [], _, _ => ub
  | L :: Ls, output, input =>
    if L.m > 1 then do
      let output := Array.replicate output.size 0
      let n0 := sliceLen L.m_k 0 input.size
      let v ← vecCopy (fresh mem L.m_k) input L.m_k 0 L.m_k
      cassert (decide (v.size = n0))
      let v ← addVec F v 0 input 0 v.size
      let u ← vecCopy (fresh mem L.m_k) v v.size 0 0
      let u ← hadamardMul F u L.G
      cassert (decide (u.size = n0))
      let u ← addVec F u 0 input 0 u.size
      let g0 ← fft_inv F mem Ls (fresh mem L.m_k) u
      let g1 ← fft_inv F mem Ls (fresh mem L.m_k) v
      let output ← inv_taylor_expand_t2 F g0 g1 output
      if L.beta_m > 1 then mulBeta F output L.inv_beta_m else pure output
    else do
      let x ← rd input 0
      let output ← wr output 0 x
      let x ← rd input 0
      let y ← rd input 1
      wr output 1 (F.mul L.inv_beta_1 (F.add x y))

/-- `compute_B` (fft_add.h:191-195) -/
def compute_B (F : GF) (b : Nat) (Ls : List Level) (B : Array Nat) (mem : Nat → Nat) : Res (Array Nat) :=
  match Ls with
  | [] => ub
  | L :: _ => compute_subspace F b L.betas B mem

/-- an `Additive<T>` object seen as a `FourierTransform<T>`; the functions on buffers are those of the base class, which do
nothing (fft_base.h:62-73) -/
def ft (F : GF) (b : Nat) (Ls : List Level) (mem : Nat → Nat) : FT where
  n := (Ls.headD default).n
  fft := fft F b mem Ls
  fft_inv := fft_inv F mem Ls
  ifft := fft_inv F mem Ls
  fftB out _ := .ok out
  fft_invB out _ := .ok out
  ifftB out _ := .ok out

end Additive
end Quad
