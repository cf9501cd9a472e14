import Verif.Model.Field
import Verif.Model.Simd

/-!
# Model of src/gf_nf4.h, src/gf_nf4.cpp and src/simd_nf4.h: `n` elements of GF(65537) in a word

`T` has `b` bits; every element takes 32 bits.  The loops of the class shift the operands lane by lane, store the
results in `scratch32`/`scratch16` and put them together with `expand32`/`expand16`.  The scratch vectors are modelled
as the list of the values stored.  They are only `reserve`d (gf_nf4.h:130-131): the code writes past their `size()`,
inside their allocated storage; the model takes these accesses as plain memory accesses.

`simd` is `none` for the functions of gf_nf4.h and `some (R, hi)` for those of gf_nf4.cpp, compiled for
`T = __uint128_t` with `QUADIRON_USE_SIMD`: registers have `R` bytes (16 or 32) and `hi` are the bytes of the upper
half of a register loaded from a word, which Intel's documentation leaves undefined (`_mm256_castsi128_si256`,
simd_nf4.h:162-171).

`rand` and `unpacked_rand` are in Model/Rand.lean.  Not modelled: `show_arr`.
-/

namespace Quad

/-- Members of `NF4<T>` (gf_nf4.h:82-90); `unit`, `q` and `h` are computed from the others -/
structure NF4 where
  b : Nat
  n : Nat
  simd : Option (Nat × (Nat → Nat))
  /-- the members of the `gf::Prime<uint32_t>` object `sub_field` -/
  sub_field : RingModN.Obj

namespace NF4

/-- `narrow_cast<uint32_t>`, and `& MASK32` -/
def narrow32 (a : Nat) : Nat := a % 2 ^ 32

/-- the next lane: `(a >> 16) >> 16` -/
def next (a : Nat) : Nat := (a >>> 16) >>> 16

/-- values a unary operation leaves in `scratch32`: `f` on every lane (loop of gf_nf4.h:293-297) -/
def lanes1 (f : Nat → Nat) : Nat → Nat → List Nat
  | 0, _ => []
  | n + 1, a => f (narrow32 a) :: lanes1 f n (next a)

/-- values a binary operation leaves in `scratch32` (loops of gf_nf4.h:217-224, 237-245, 258-267) -/
def lanes2 (f : Nat → Nat → Nat) : Nat → Nat → Nat → List Nat
  | 0, _, _ => []
  | n + 1, a, c => f (narrow32 a) (narrow32 c) :: lanes2 f n (next a) (next c)

/-- the same for an operation that can fail -/
def lanesR (f : Nat → Nat → Res Nat) : Nat → Nat → Nat → Res (List Nat)
  | 0, _, _ => .ok []
  | n + 1, a, c => do
    let x ← f (narrow32 a) (narrow32 c)
    let xs ← lanesR f n (next a) (next c)
    pure (x :: xs)

/-- `expand16` (gf_nf4.h:150-158) on a list of `n ≥ 1` values -/
def expand16S (b : Nat) : List Nat → Nat
  | [] => 0
  | [x] => x
  | x :: xs => wrap b (expand16S b xs <<< 16) ||| x

/-- `expand32` (gf_nf4.h:160-168) on a list of `n ≥ 1` values -/
def expand32S (b : Nat) : List Nat → Nat
  | [] => 0
  | [x] => x
  | x :: xs => wrap b (wrap b (expand32S b xs <<< 16) <<< 16) ||| x

/-! ### the vectorised functions -/

/-- the `__uint128_t` stored from the low half of a register (simd_nf4.h:44-50, 173-176) -/
def storeLow (x : Simd.Reg) : Nat := leVal ((List.range 16).map x)

/-- `load_to_reg(__uint128_t)` (simd_nf4.h:162-171, 259-263) -/
def loadWord (hi : Nat → Nat) (a : Nat) : Simd.Reg := fun j => if j < 16 then a / 256 ^ j % 256 else hi j

/-- `_mm_set_epi32(x3, x2, x1, x0)` stored to a word -/
def set_epi32 (x3 x2 x1 x0 : Nat) : Nat :=
  storeLow (Simd.ofLanes 4 (fun i => if i = 0 then x0 else if i = 1 then x1 else if i = 2 then x2 else x3))

/-- `_mm_set_epi16(0, 0, 0, 0, x3, x2, x1, x0)` stored to a word -/
def set_epi16 (x3 x2 x1 x0 : Nat) : Nat :=
  storeLow (Simd.ofLanes 2 (fun i => if i = 0 then x0 else if i = 1 then x1 else if i = 2 then x2 else if i = 3 then x3 else 0))

/-- `_mm_extract_epi16(vec_a, i)` of the register loaded from `a` -/
def extract16 (a i : Nat) : Nat := Simd.lane 2 (loadWord (fun _ => 0) a) i

/-- `simd::expand16` (simd_nf4.h:52-61): the array is copied into four zeroed elements -/
def expand16V (xs : List Nat) : Nat := set_epi16 (xs.getD 3 0) (xs.getD 2 0) (xs.getD 1 0) (xs.getD 0 0)

/-- `simd::expand32` (simd_nf4.h:63-72) -/
def expand32V (xs : List Nat) : Nat := set_epi32 (xs.getD 3 0) (xs.getD 2 0) (xs.getD 1 0) (xs.getD 0 0)

/-- `simd::add` (simd_nf4.h:178-185, 265-272) -/
def addV (hi : Nat → Nat) (a c : Nat) : Nat := storeLow (Simd.mod_add 4 (loadWord hi a) (loadWord hi c))

/-- `simd::sub` (simd_nf4.h:187-194, 274-281) -/
def subV (hi : Nat → Nat) (a c : Nat) : Nat := storeLow (Simd.mod_sub 4 (loadWord hi a) (loadWord hi c))

/-- `simd::mul` (simd_nf4.h:196-203, 283-290) -/
def mulV (R : Nat) (hi : Nat → Nat) (a c : Nat) : Nat := storeLow (Simd.mod_mul_safe R 4 (loadWord hi a) (loadWord hi c))

/-- `!!x` -/
def bit (x : Nat) : Nat := if x = 0 then 0 else 1

/-- `simd::unpack` (simd_nf4.h:74-98, 100-123): the values and the flag -/
def unpackV (a : Nat) : Nat × Nat :=
  let ai := extract16 a
  (set_epi16 (ai 6) (ai 4) (ai 2) (ai 0),
   ai 1 ||| (bit (ai 3) <<< 1) ||| (bit (ai 5) <<< 2) ||| (bit (ai 7) <<< 3))

/-- `simd::pack(a)` (simd_nf4.h:125-135) -/
def packV (a : Nat) : Nat := set_epi32 (extract16 a 3) (extract16 a 2) (extract16 a 1) (extract16 a 0)

/-- `simd::pack(a, flag)` (simd_nf4.h:137-156) -/
def packFlagV (a flag : Nat) : Nat :=
  let b0 := if flag &&& 1 ≠ 0 then 65536 else extract16 a 0
  let flag := flag >>> 1
  let b1 := if flag &&& 1 ≠ 0 then 65536 else extract16 a 1
  let flag := flag >>> 1
  let b2 := if flag &&& 1 ≠ 0 then 65536 else extract16 a 2
  let flag := flag >>> 1
  let b3 := if flag &&& 1 ≠ 0 then 65536 else extract16 a 3
  set_epi32 b3 b2 b1 b0

/-- `simd::hadamard_mul` (simd_nf4.h:345-365): `n / ratio` registers, then the words left
(`hadamard_mul_rem`, simd_nf4.h:225-235); `ratio` is the number of words of a register -/
def hadamard_mulV (R : Nat) (hi : Nat → Nat) (n : Nat) (x y : Array Nat) : Res (Array Nat) := do
  let ratio := R / 16
  let vec_len := n / ratio
  let x ← forN vec_len x (fun i x => do
    let xs ← (List.range ratio).mapM (fun t => rd x (i * ratio + t))
    let ys ← (List.range ratio).mapM (fun t => rd y (i * ratio + t))
    let r := Simd.mod_mul_safe R 4 (fun j => xs.getD (j / 16) 0 / 256 ^ (j % 16) % 256) (fun j => ys.getD (j / 16) 0 / 256 ^ (j % 16) % 256)
    forN ratio x (fun t x => wr x (i * ratio + t) (storeLow (fun j => r (t * 16 + j)))))
  forN (n - vec_len * ratio) x (fun i x => do
    let a ← rd x (vec_len * ratio + i)
    let c ← rd y (vec_len * ratio + i)
    wr x (vec_len * ratio + i) (mulV R hi a c))

variable (N : NF4)

/-! ### the class -/

/-- `expand16` (gf_nf4.h:150-158, gf_nf4.cpp:40-44) -/
def expand16 (xs : List Nat) : Nat := if N.simd.isSome then expand16V xs else expand16S N.b xs

/-- `expand32` (gf_nf4.h:160-168, gf_nf4.cpp:46-50) -/
def expand32 (xs : List Nat) : Nat := if N.simd.isSome then expand32V xs else expand32S N.b xs

/-- loop of `replicate` (gf_nf4.h:184-186), `k` turns -/
def replicateLoop (b a : Nat) : Nat → Nat → Nat
  | 0, r => r
  | k + 1, r => replicateLoop b a k (wrap b (wrap b (r <<< 16) <<< 16) ||| a)

/-- `replicate` (gf_nf4.h:180-188) -/
def replicate (a : Nat) : Nat := replicateLoop N.b a (N.n - 1) a

/-- `get_unit` (gf_nf4.h:126, 202-206) -/
def unit : Nat := N.replicate 1
/-- `card` (gf_nf4.h:127, 190-194) -/
def q : Nat := N.replicate 65537
/-- `card_minus_one` (gf_nf4.h:128, 196-200) -/
def h : Nat := N.replicate 65536

/-- one lane of `add` (gf_nf4.h:217): the sum of two `uint32_t` wraps -/
def add1 (x y : Nat) : Nat := wrap 32 (x + y) % 65537

/-- one lane of `sub` (gf_nf4.h:238) -/
def sub1 (x y : Nat) : Nat := if x ≥ y then x - y else wrap 32 (65537 + x + (2 ^ 32 - y))

/-- one lane of `mul` (gf_nf4.h:260): the product is a `uint64_t` -/
def mul1 (x y : Nat) : Nat := if x = 65536 ∧ y = 65536 then 1 else wrap 64 (x * y) % 65537

/-- `add` (gf_nf4.h:214-229, gf_nf4.cpp:52-57) -/
def add (a c : Nat) : Nat :=
  match N.simd with
  | some (_, hi) => addV hi a c
  | none => N.expand32 (lanes2 add1 N.n a c)

/-- `sub` (gf_nf4.h:231-250, gf_nf4.cpp:59-63) -/
def sub (a c : Nat) : Nat :=
  match N.simd with
  | some (_, hi) => subV hi a c
  | none => N.expand32 (lanes2 sub1 N.n a c)

/-- `neg` (gf_nf4.h:208-212) -/
def neg (a : Nat) : Nat := N.sub 0 a

/-- `mul` (gf_nf4.h:252-271, gf_nf4.cpp:65-69) -/
def mul (a c : Nat) : Nat :=
  match N.simd with
  | some (R, hi) => mulV R hi a c
  | none => N.expand32 (lanes2 mul1 N.n a c)

/-- `div` (gf_nf4.h:273-287) -/
def div (a c : Nat) : Res Nat := do
  let xs ← lanesR N.sub_field.ring.div N.n a c
  pure (N.expand32 xs)

/-- `inv` (gf_nf4.h:289-300) -/
def inv (a : Nat) : Res Nat := do
  let xs ← lanesR (fun x _ => N.sub_field.ring.inv x) N.n a 0
  pure (N.expand32 xs)

/-- `exp` (gf_nf4.h:302-316) -/
def exp (a c : Nat) : Nat := N.expand32 (lanes2 N.sub_field.ring.exp N.n a c)

/-- `log` (gf_nf4.h:318-332) -/
def log (a c : Nat) : Res Nat := do
  let xs ← lanesR N.sub_field.ring.log N.n a c
  pure (N.expand32 xs)

/-- `check` (gf_nf4.h:457-461) -/
def check (a : Nat) : Bool := decide (a < N.q)

/-- values `pack(a)` leaves in `scratch32` (gf_nf4.h:357-361) -/
def packLanes : Nat → Nat → List Nat
  | 0, _ => []
  | n + 1, a => (a &&& 0xFFFF) :: packLanes n (a >>> 16)

/-- values `pack(a, flag)` leaves in `scratch32` (gf_nf4.h:374-379) -/
def packFlagLanes : Nat → Nat → Nat → List Nat
  | 0, _, _ => []
  | n + 1, a, flag => (if flag &&& 1 ≠ 0 then 65536 else a &&& 0xFFFF) :: packFlagLanes n (a >>> 16) (flag >>> 1)

/-- `pack(a)` (gf_nf4.h:354-365, gf_nf4.cpp:90-94) -/
def pack (a : Nat) : Nat := if N.simd.isSome then packV a else N.expand32 (packLanes N.n a)

/-- `pack(a, flag)` (gf_nf4.h:371-383, gf_nf4.cpp:96-100); `flag` is a `uint32_t` -/
def packFlag (a flag : Nat) : Nat := if N.simd.isSome then packFlagV a flag else N.expand32 (packFlagLanes N.n a flag)

/-- the values `unpack` leaves in `scratch16` and the flag (gf_nf4.h:397-413), from lane `i` -/
def unpackLanes : Nat → Nat → Nat → Nat → List Nat × Nat
  | 0, _, _, flag => ([], flag)
  | n + 1, i, a, flag =>
    let ae := narrow32 a
    let r := unpackLanes n (i + 1) (next a) (if ae = 65536 then flag ||| (1 <<< i) else flag)
    ((if ae = 65536 then 0 else ae % 2 ^ 16) :: r.1, r.2)

/-- `unpack` (gf_nf4.h:390-418, 420-446, gf_nf4.cpp:77-88): the values and the flag -/
def unpack (a : Nat) : Nat × Nat :=
  if N.simd.isSome then unpackV a
  else
    let r := unpackLanes N.n 0 a 0
    (N.expand16 r.1, r.2)

/-- `get_nth_root` (gf_nf4.h:449-455); the argument becomes a `uint32_t` -/
def get_nth_root (n : Nat) : Res Nat := do
  let sub_w ← N.sub_field.get_nth_root (wrap 32 n)
  pure (N.replicate sub_w)

/-- `get_inv_n_mod_p` (gf_nf4.h:134-138, gf_base.h:115-119) -/
def get_inv_n_mod_p (n : Nat) : Res Nat := do
  let i ← N.inv n
  pure (N.replicate (i % 65537))

/-- `hadamard_mul` (gf_nf4.h:483-489, gf_nf4.cpp:71-75) on the first `n` words of two arrays -/
def hadamard_mul (n : Nat) (x y : Array Nat) : Res (Array Nat) :=
  match N.simd with
  | some (R, hi) => hadamard_mulV R hi n x y
  | none => forN n x (fun i x => do
      let a ← rd x i
      let c ← rd y i
      wr x i (N.mul a c))

/-- The constructor (gf_nf4.h:115-132, 144-148).  Not modelled: the base class `Field<T>(65537, n)`, of which only the members
`p` and `n` are used. -/
def mk' (b n : Nat) (simd : Option (Nat × (Nat → Nat))) : Res NF4 := do
  let sub_field ← (RingModN.mk 32 64 true 65537).init 0
  cassert (decide (n ≤ b / 8 / 4))
  pure { b := b, n := n, simd := simd, sub_field := sub_field }

/-- `find_primitive_root` (gf_ring.h:624-660), entered with `root = 0`.  `RingModN<T>::exp` is `exp_quick` over the
virtual `mul`. -/
def find_primitive_root (ds : List Nat) : Res Nat :=
  if N.h = 1 then .ok 1
  else
    let r := RingModN.rootLoop (expQuick N.mul) ds (N.h - 1) 2
    if r = 0 then .error .assertFail else .ok r

/-- a field object after `init` -/
structure Obj where
  N : NF4
  factors : List (Nat × Nat)
  all_primes_factors : List Nat
  proper_divisors : List Nat
  root : Nat

/-- `init` (gf_ring.h:177-185) with `compute_factors_of_order` (gf_ring.h:453-466) -/
def init : Res Obj := do
  let fs ← Arith.factor_prime N.b N.h
  let pds := Arith.get_proper_divisors_from N.h (fs.map Prod.fst)
  let root ← N.find_primitive_root pds
  pure { N := N, factors := fs, all_primes_factors := Arith.get_prime_factors_from fs, proper_divisors := pds, root := root }

namespace Obj
variable (O : Obj)

/-- `get_code_len_high_compo` (gf_ring.h:814-822) -/
def get_code_len_high_compo (n : Nat) : Res Nat := do
  cassert (decide (n ≤ O.N.h))
  Arith.get_code_len_high_compo_factors O.N.b O.all_primes_factors n

/-- the vtable of a `NF4<T>` object -/
def gf : GF where
  card := O.N.q
  cardM1 := O.N.h
  p := 65537
  add := O.N.add
  sub := O.N.sub
  mul := O.N.mul
  neg := O.N.neg
  inv := O.N.inv
  div := O.N.div
  exp := O.N.exp
  omega := fun w i => O.N.exp w (O.N.replicate i)
  nthRoot := O.N.get_nth_root
  invN := O.N.get_inv_n_mod_p
  unit := O.N.unit
  replicate := O.N.replicate
  isNF4 := true
  codeLenHC := O.get_code_len_high_compo

end Obj
end NF4
end Quad
