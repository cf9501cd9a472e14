import Verif.Model.Arith

/-!
# Model of src/gf_ring.h, src/gf_base.h and src/gf_prime.h

A ring object is described by the width of its word type, the width of the
double-size type used by `mul`, whether the signed double-size type really is
signed, and its cardinal.  `assert(check(..))` on operands is not executed in
the arithmetic functions (they are total words-to-words functions, as in a
release build); the theorems that use them carry the operand validity.
-/

namespace Quad

/-- Quick exponentiation `RingModN::exp_quick` (gf_ring.h:317-335) over a
virtual `mul`; the C++ recursion is on `exponent / 2`, `fuel` bounds it. -/
def expQuickF (mul : Nat → Nat → Nat) (base : Nat) : Nat → Nat → Nat
  | 0, _ => 1
  | fuel + 1, e =>
    if e = 0 then 1
    else if e = 1 then base
    else
      let tmp := expQuickF mul base fuel (e / 2)
      let result := mul tmp tmp
      if e % 2 = 1 then mul result base else result

/-- `RingModN::exp_quick` (gf_ring.h:317-335) -/
def expQuick (mul : Nat → Nat → Nat) (base e : Nat) : Nat := expQuickF mul base (e + 1) e

/-- `RingModN::exp_quick` (gf_ring.h:317-335) over a `mul` that may read outside a table; `fuel` bounds the recursion on `exponent / 2` -/
def expQuickCF (mul : Nat → Nat → Res Nat) (base : Nat) : Nat → Nat → Res Nat
  | 0, _ => .error .diverges
  | fuel + 1, e =>
    if e = 0 then .ok 1
    else if e = 1 then .ok base
    else do
      let tmp ← expQuickCF mul base fuel (e / 2)
      let result ← mul tmp tmp
      if e % 2 = 1 then mul result base else pure result

/-- `RingModN::exp_quick` (gf_ring.h:317-335) over a `mul` that may read outside a table -/
def expQuickC (mul : Nat → Nat → Res Nat) (base e : Nat) : Res Nat := expQuickCF mul base (e + 1) e

/-- loop of `RingModN::exp_naive` (gf_ring.h:309-311), `k` turns -/
def expNaiveLoop (mul : Nat → Nat → Nat) (base : Nat) : Nat → Nat → Nat
  | 0, r => r
  | k + 1, r => expNaiveLoop mul base k (mul r base)

/-- `RingModN::exp_naive` (gf_ring.h:297-314) -/
def expNaive (mul : Nat → Nat → Nat) (base e : Nat) : Nat :=
  if e = 0 then 1 else if e = 1 then base else expNaiveLoop mul base (e - 1) base

/-- loop of `RingModN::log_naive` (gf_ring.h:346-349) from `r`, `k` turns -/
def logLoop (exp : Nat → Nat → Nat) (base x : Nat) : Nat → Nat → Res Nat
  | 0, _ => .error (.throws .noSolution)
  | k + 1, r => if exp base r = x then .ok r else logLoop exp base x k (r + 1)

/-- `RingModN::log_naive` (gf_ring.h:342-352) for a field of `card` elements -/
def logNaive (card : Nat) (exp : Nat → Nat → Nat) (base x : Nat) : Res Nat :=
  logLoop exp base x (card - 1) 1

/-- The data a `RingModN<T>` object is built from (gf_ring.h:76-180).
`b`: bits of `T`; `db`: bits kept by `DoubleSizeVal<T>` products (core.h:41-59;
128 for `T = __uint128_t`, whose `UInt256` keeps the low half only,
big_int.h:43-46); `sgn`: `SignedDoubleSizeVal<T>` is a signed type (false for
`__uint128_t`, whose `Int256` compares and wraps as unsigned, big_int.h:59-120). -/
structure RingModN where
  b : Nat
  db : Nat
  sgn : Bool
  card : Nat
  deriving DecidableEq, Repr

namespace RingModN

variable (R : RingModN)

/-- `card_minus_one` (gf_ring.h:193-196) -/
def cardM1 : Nat := R.card - 1

/-- `check` (gf_ring.h:199-203) -/
def check (a : Nat) : Bool := decide (a < R.card)

/-- `add` (gf_ring.h:213-223) -/
def add (x y : Nat) : Nat :=
  let c := wrap R.b (x + y)
  if c ≥ R.card then c - R.card else c

/-- `sub` (gf_ring.h:225-235) -/
def sub (x y : Nat) : Nat :=
  if x ≥ y then x - y else wrap R.b (R.card + 2 ^ R.b - (y - x))

/-- `neg` (gf_ring.h:205-211) -/
def neg (x : Nat) : Nat := R.sub 0 x

/-- `mul` (gf_ring.h:237-244) -/
def mul (x y : Nat) : Nat := wrap R.db (x * y) % R.card

/-- `SignedDoubleSizeVal<T>` -/
def sint : Arith.SInt := if R.sgn then .signed (2 * R.b) else .int256

/-- `inv_bezout` (gf_ring.h:258-271).  The comparison of an `Int256` with 0 is false, its values not being negative. -/
def inv_bezout (x : Nat) : Res Nat := do
  let st ← Arith.extended_gcd R.sint x R.card
  let z ← (if st.oldS < 0 then R.sint.norm (R.card + st.oldS) else pure st.oldS)
  pure (z % (2 ^ R.b : Int)).toNat

/-- `inv` (gf_ring.h:273-277) -/
def inv (x : Nat) : Res Nat := R.inv_bezout x

/-- `div` (gf_ring.h:246-255) -/
def div (x y : Nat) : Res Nat := do
  let i ← R.inv y
  pure (R.mul x i)

/-- `exp` (gf_ring.h:279-286) -/
def exp (x e : Nat) : Nat := expQuick R.mul x e

/-- `log` (gf_ring.h:288-294) -/
def log (x y : Nat) : Res Nat := logNaive R.card R.exp x y

/-- The members computed by `init` (gf_ring.h:170-185) -/
structure Obj where
  ring : RingModN
  factors : List (Nat × Nat)
  all_primes_factors : List Nat
  proper_divisors : List Nat
  root : Nat
  deriving DecidableEq, Repr

/-- the loop over `proper_divisors` of `is_primitive_root` and
`find_primitive_root` (gf_ring.h:607-613, 645-652) -/
def noDivisorGivesOne (exp : Nat → Nat → Nat) (nb : Nat) (ds : List Nat) : Bool :=
  ds.all (fun d => exp nb d != 1)

/-- `while (nb <= h)` of `find_primitive_root` (gf_ring.h:643-658); `k` values
left, 0 when the search fails -/
def rootLoop (exp : Nat → Nat → Nat) (ds : List Nat) : Nat → Nat → Nat
  | 0, _ => 0
  | k + 1, nb => if noDivisorGivesOne exp nb ds then nb else rootLoop exp ds k (nb + 1)

/-- `find_primitive_root` (gf_ring.h:624-660), entered with `root` -/
def find_primitive_root (root : Nat) (ds : List Nat) : Res Nat :=
  if root ≠ 0 then .ok root
  else
    let h := R.cardM1
    if h = 1 then .ok 1
    else
      let r := rootLoop R.exp ds (h - 1) 2
      if r = 0 then .error .assertFail else .ok r

/-- `init` (gf_ring.h:177-185) with `compute_factors_of_order`
(gf_ring.h:453-466), entered with the member `root` already set to `root0`
(0 for the classes of gf_ring.h and gf_prime.h) -/
def init (root0 : Nat) : Res Obj := do
  let h := R.cardM1
  let fs ← Arith.factor_prime R.b h
  let pds := Arith.get_proper_divisors_from h (fs.map Prod.fst)
  let root ← R.find_primitive_root root0 pds
  pure { ring := R, factors := fs, all_primes_factors := Arith.get_prime_factors_from fs,
         proper_divisors := pds, root := root }

end RingModN

namespace RingModN.Obj

variable (O : RingModN.Obj)

/-- `is_primitive_root` (gf_ring.h:600-615) -/
def is_primitive_root (nb : Nat) : Bool := noDivisorGivesOne O.ring.exp nb O.proper_divisors

/-- `do_step_get_order` (gf_ring.h:667-700).  `D` lists the `(prime, exponent)`
pairs from the back of the C++ vectors.  The inner `while (r > 1)` only changes
locals that are discarded by `continue`. -/
def do_step_get_order (exp : Nat → Nat → Nat) (x : Nat) : Nat → Nat → List (Nat × Nat) → Res Nat
  | 0, _, _ => .error .diverges
  | _ + 1, h, [] => .ok h
  | fuel + 1, h, (p, r) :: D =>
    let y := h / p
    if exp x y ≠ 1 then do_step_get_order exp x fuel h D
    else do_step_get_order exp x fuel y (if r > 1 then (p, r - 1) :: D else D)

/-- number of steps `do_step_get_order` can take -/
def orderFuel (l : List (Nat × Nat)) : Nat := (l.map (fun pe => pe.2 + 1)).sum + 1

/-- `get_order` (gf_ring.h:725-738) -/
def get_order (x : Nat) : Res Nat :=
  if x = 0 ∨ x = 1 then .ok 1
  else do
    let h := O.ring.cardM1
    let order ← do_step_get_order O.ring.exp x (orderFuel O.factors) h O.factors.reverse
    pure (if order = 1 then h else order)

/-- `check_primitive_root` (gf_ring.h:745-750) -/
def check_primitive_root (nb : Nat) : Res Bool := do
  let o ← O.get_order nb
  pure (decide (o = O.ring.cardM1))

/-- loop of `check_order_naive` (gf_ring.h:762-768), `k` turns -/
def orderNaiveLoop (mul : Nat → Nat → Nat) (nb : Nat) : Nat → Nat → Bool
  | 0, _ => true
  | k + 1, tmp => if tmp = 1 then false else orderNaiveLoop mul nb k (mul tmp nb)

/-- `check_order_naive` (gf_ring.h:755-771), for `order ≥ 1` -/
def check_order_naive (nb order : Nat) : Bool :=
  if O.ring.exp nb order ≠ 1 then false
  else orderNaiveLoop O.ring.mul nb (order - 1 - 1) nb

/-- `get_nth_root` (gf_ring.h:774-781) -/
def get_nth_root (n : Nat) : Res Nat := do
  let d ← Arith.gcd n O.ring.cardM1
  if d = 0 then ub else pure (O.ring.exp O.root (O.ring.cardM1 / d))

/-- `get_code_len` (gf_ring.h:798-807) -/
def get_code_len (n : Nat) : Res Nat := do
  cassert (decide (n ≤ O.ring.cardM1))
  Arith.get_code_len O.ring.b O.ring.cardM1 n

/-- `get_code_len_high_compo` (gf_ring.h:814-822) -/
def get_code_len_high_compo (n : Nat) : Res Nat := do
  cassert (decide (n ≤ O.ring.cardM1))
  Arith.get_code_len_high_compo_factors O.ring.b O.all_primes_factors n

/-- `compute_omegas` (gf_ring.h:494-500): the vector `W` after the loop -/
def compute_omegas (W : Array Nat) (n w : Nat) : Res (Array Nat) :=
  forN n W (fun i W => wr W i (O.ring.exp w i))

/-- reading branch of `compute_omegas_cached` (gf_ring.h:525-535) on the list of
values in the file: every value is stored, with the assertion of `set` (vec_vector.h:247-253), then the count is asserted -/
def readCache (n : Nat) : List Nat → Nat → Array Nat → Res (Array Nat)
  | [], i, W => do
    cassert (decide (i = n))
    pure W
  | v :: vs, i, W => do
    cassert (decide (i < W.size))
    let W ← wr W i v
    readCache n vs (i + 1) W

/-- `compute_omegas_cached` (gf_ring.h:511-536), of a process that runs alone (Model/Cache.lean has the others).  `file` is the content of
`W<w>.cache` if it exists; the result is the vector and the file content
afterwards. -/
def compute_omegas_cached (file : Option (List Nat)) (W : Array Nat) (n w : Nat) :
    Res (Array Nat × List Nat) :=
  match file with
  | none => do
    let W ← O.compute_omegas W n w
    pure (W, (List.range n).map (fun i => O.ring.exp w i))
  | some vs => do
    let W ← readCache n vs 0 W
    pure (W, vs)

/-- `Field::get_inv_n_mod_p` (gf_base.h:115-119) for a prime field -/
def get_inv_n_mod_p (n : Nat) : Res Nat := do
  let i ← O.ring.inv n
  if O.ring.card = 0 then ub else pure (i % O.ring.card)

/-- `Prime::inv_exp` (gf_prime.h:62-68) -/
def inv_exp (x : Nat) : Nat := O.ring.exp x (O.ring.card - 2)

end RingModN.Obj

end Quad
