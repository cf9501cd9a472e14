import Verif.Base

/-!
# Model of `src/arith.h`

`b` is the number of bits of the unsigned word type `T` (`uint32_t`,
`uint64_t`, `__uint128_t`).  The narrower `uint16_t` instantiation differs
only in that intermediate products are promoted to `int`.  In `jacobi` signed double-size values are `Int`.
-/

namespace Quad.Arith

/-- first loop of `sqrt`: `while (place > n) place /= 4;` (arith.h:123-125) -/
def sqrtPlace : Nat → Nat → Nat → Nat
  | 0, place, _ => place
  | fuel + 1, place, n => if place > n then sqrtPlace fuel (place / 4) n else place

/-- second loop of `sqrt` (arith.h:128-135); `fuel` bounds the iterations -/
def sqrtLoop (b : Nat) : Nat → Nat → Nat → Nat → Nat
  | 0, _, _, root => root
  | fuel + 1, place, n, root =>
    if place = 0 then root
    else if n ≥ wrap b (root + place) then
      sqrtLoop b fuel (place / 4) (n - (root + place)) (wrap b (root + wrap b (place * 2)) / 2)
    else sqrtLoop b fuel (place / 4) n (root / 2)

/-- `sqrt` (arith.h:118-138).  Both loops divide `place` (at most `2^b`) by 4 at
each turn, so `b` turns are enough for any `b`. -/
def sqrt (b n : Nat) : Nat :=
  let place := sqrtPlace b (2 ^ (b - 2)) n
  sqrtLoop b b place n 0

/-- loop of `exp` (arith.h:153-162) -/
def expLoop (b : Nat) : Nat → Nat → Nat → Nat → Nat
  | 0, _, _, result => result
  | fuel + 1, base, e, result =>
    let result := if e % 2 = 1 then wrap b (result * base) else result
    let e := e / 2
    if e = 0 then result else expLoop b fuel (wrap b (base * base)) e result

/-- `exp` (arith.h:146-165); `e` turns are enough since `e` halves -/
def exp (b base e : Nat) : Nat :=
  if e = 0 then 1 else expLoop b e base e 1

/-- loop of `exp_mod` (arith.h:184-190) -/
def expModLoop (b m : Nat) : Nat → Nat → Nat → Nat → Nat
  | 0, _, _, result => result
  | fuel + 1, base, e, result =>
    if e > 0 then
      let result := if e % 2 = 1 then wrap b (result * base) % m else result
      expModLoop b m fuel (wrap b (base * base) % m) (e / 2) result
    else result

/-- `exp_mod` (arith.h:175-193); `base % modulus` with modulus 0 is undefined -/
def exp_mod (b base e m : Nat) : Res Nat :=
  if m = 0 then ub
  else if m = 1 then .ok 0
  else .ok (expModLoop b m e (base % m) e 1)

/-- `is_power_of_2` (arith.h:200-204); the parameter is an `int` -/
def is_power_of_2 (n : Int) : Bool :=
  decide (n > 0) && (n.toNat &&& (n.toNat - 1)) == 0

/-- loop of `log2` (arith.h:238-241) -/
def log2Loop : Nat → Nat → Nat → Nat
  | 0, _, r => r
  | fuel + 1, n, r => if n > 1 then log2Loop fuel (n / 2) (r + 1) else r

/-- `log2` (arith.h:227-244).  For negative `n` the loop is skipped: result 0. -/
def log2 (n : Int) : Res Nat :=
  if n = 0 then .error (.throws .domainError)
  else if n = 1 then .ok 0
  else .ok (log2Loop n.toNat n.toNat 0)

/-- `exp2` (arith.h:251-255), before the conversion of the result to `int`;
shifting by the width or more is undefined -/
def exp2 (b n : Nat) : Res Nat :=
  if n < b then .ok (wrap b (1 <<< n)) else ub

/-- `ceil2` (arith.h:211-218) -/
def ceil2 (b : Nat) (n : Int) : Res Nat :=
  if is_power_of_2 n then .ok n.toNat
  else do
    let l ← log2 n
    exp2 b (l + 1)

/-- state of `extended_gcd` (arith.h:281-286) -/
structure EGcd where
  oldR : Int
  r : Int
  oldS : Int
  s : Int
  oldT : Int
  t : Int
  deriving Repr, DecidableEq

/-- `SignedDoubleSizeVal<T>` (core.h:61-79): a signed type of `w` bits, twice those of `T`, or `Int256` when `T` is `__uint128_t` -/
inductive SInt
  | signed (w : Nat)
  | int256
  deriving DecidableEq, Repr

/-- The result of an operation whose exact value is `x`: in a signed type an overflow is undefined; `Int256` keeps the low 128 bits
(big_int.h:91-114) and has no negative values. -/
def SInt.norm : SInt → Int → Res Int
  | .signed w, x => if -2 ^ (w - 1) ≤ x ∧ x < 2 ^ (w - 1) then .ok x else ub
  | .int256, x => .ok (x % 2 ^ 128)

/-- `a - q * c`: two operations -/
def SInt.subMul (S : SInt) (a q c : Int) : Res Int := do
  let p ← S.norm (q * c)
  S.norm (a - p)

/-- loop of `extended_gcd` (arith.h:290-304); C++ division truncates -/
def egcdLoop (S : SInt) : Nat → EGcd → Res EGcd
  | 0, st => if st.r = 0 then .ok st else .error .diverges
  | fuel + 1, st =>
    if st.r = 0 then .ok st
    else do
      let q ← S.norm (Int.tdiv st.oldR st.r)
      let r ← S.subMul st.oldR q st.r
      let s ← S.subMul st.oldS q st.s
      let t ← S.subMul st.oldT q st.t
      egcdLoop S fuel { oldR := st.r, r := r, oldS := st.s, s := s, oldT := st.t, t := t }

/-- `extended_gcd` (arith.h:274-317) on values of the type `S`.  Returns the final loop state: the return
value is `oldR`, `bezout_coef = {oldS, oldT}`, `quotient_gcd = {t, s}`. -/
def extended_gcd (S : SInt) (a c : Int) : Res EGcd :=
  egcdLoop S (c.natAbs + 1)
    { oldR := a, r := c, oldS := 1, s := 0, oldT := 0, t := 1 }

/-- loop of `gcd` (arith.h:608-614) -/
def gcdLoop : Nat → Nat → Nat → Res Nat
  | 0, _, _ => .error .diverges
  | fuel + 1, u, v =>
    let r := u % v
    if r = 0 then .ok v else gcdLoop fuel v r

/-- `gcd` (arith.h:600-615) -/
def gcd (u v : Nat) : Res Nat :=
  if v = 0 then .ok u
  else if u = 0 then .ok v
  else gcdLoop v u v

/-- the `M[i]` of `chinese_remainder` (arith.h:343-349): `N[i] = acc / n[i]` and
the first Bezout coefficient of `(N[i], n[i])`; a zero modulus is undefined -/
def crtTerm (S : SInt) (acc : Int) (ni : Nat) : Res (Int × Int) :=
  if ni = 0 then ub
  else do
    let N ← S.norm (Int.tdiv acc ni)
    let st ← extended_gcd S N ni
    pure (N, st.oldS)

/-- summation loop of `chinese_remainder` (arith.h:351-354) -/
def crtSum (S : SInt) (acc : Int) : List (Nat × Nat) → Int → Res Int
  | [], x => .ok x
  | (a, n) :: rest, x => do
    let (N, M) ← crtTerm S acc n
    let p ← S.norm (N * M)
    let p ← S.norm (p * a)
    let x ← S.norm (x + p)
    crtSum S acc rest x

/-- the product of the moduli (arith.h:338-341) -/
def crtProd (S : SInt) : List (Nat × Nat) → Int → Res Int
  | [], acc => .ok acc
  | (_, n) :: rest, acc => do
    let acc ← S.norm (acc * n)
    crtProd S rest acc

/-- `chinese_remainder` (arith.h:330-366) on the list of `(a[i], n[i])`, for `T` of `b` bits other than `__uint128_t`: `Int256` has
no `operator*=`.  The two C++ loops over `i` are fused.  `x % acc` truncates toward zero; the result is narrowed to `T`. -/
def chinese_remainder (b : Nat) (l : List (Nat × Nat)) : Res Nat := do
  let S := SInt.signed (2 * b)
  let acc ← crtProd S l 1
  let x ← crtSum S acc l 0
  let x := Int.tmod x acc
  let x ← (if x < 0 then S.norm (acc + x) else pure x)
  pure (x % 2 ^ b).toNat

/-- loop of `jacobi` (arith.h:396-428).  `m` is positive on entry (checked by
the caller) and stays so.  No operation overflows: only odd numbers are negated, and the least value of the type is even. -/
def jacobiLoop : Nat → Int → Int → Int → Res Int
  | 0, _, _, _ => .error .diverges
  | fuel + 1, n, m, jac =>
    if m = 1 then .ok jac
    else if n = 0 ∨ (Int.tmod n 2 = 0 ∧ Int.tmod m 2 = 0) then jacobiLoop fuel n 1 0
    else if Int.tmod m 2 = 0 then
      jacobiLoop fuel n (Int.tdiv m 2)
        (if Int.tmod n 8 = 3 ∨ Int.tmod n 8 = 5 then -jac else jac)
    else if Int.tmod n 2 = 0 then
      jacobiLoop fuel (Int.tdiv n 2) m
        (if Int.tmod m 8 = 3 ∨ Int.tmod m 8 = 5 then -jac else jac)
    else if n < 0 then
      jacobiLoop fuel (-n) m (if Int.tmod m 4 = 3 then -jac else jac)
    else
      jacobiLoop fuel (Int.tmod m n) n
        (if Int.tmod n 4 = 3 ∧ Int.tmod m 4 = 3 then -jac else jac)

/-- `jacobi` (arith.h:382-431) -/
def jacobi (n m : Int) : Res Int :=
  if Int.tmod m 2 = 0 then .error (.throws .domainError)
  else if m < 0 then .error (.throws .domainError)
  else jacobiLoop (2 * n.natAbs + 4) n m 1

/-- `solovay_strassen1` (arith.h:433-446) for `T` of at least the width of
`int`: `j` is then converted to `T` in the comparison `j == _res`. -/
def solovay_strassen1 (b a n : Nat) : Res Bool := do
  let e := wrap b (n + 2 ^ b - 1) / 2
  let res ← exp_mod b a e n
  let j ← jacobi a n
  let res' := if j < 0 then wrap b (res + 2 ^ b - n) else res
  pure (decide ((j % (2 ^ b : Int)).toNat = res'))

/-- `solovay_strassen` (arith.h:454-463); `rand i` is the value drawn by the
`i`-th call of `rand_func`; `k` counts the remaining turns of the 100 -/
def solovayLoop (b n : Nat) (rand : Nat → Nat) : Nat → Res Bool
  | 0 => .ok true
  | k + 1 => do
    let r ← solovay_strassen1 b (rand (99 - k)) n
    if r then solovayLoop b n rand k else pure false

def solovay_strassen (b n : Nat) (rand : Nat → Nat) : Res Bool := solovayLoop b n rand 100

/-- loop of `is_prime` (arith.h:477-480) from counter `i`, `k` turns left -/
def isPrimeLoop (n : Nat) : Nat → Nat → Bool
  | 0, _ => true
  | k + 1, i => if n % i = 0 then false else isPrimeLoop n k (i + 1)

/-- `is_prime` (arith.h:470-482) -/
def is_prime (b n : Nat) : Bool :=
  if n = 2 then true
  else
    let root := sqrt b n
    isPrimeLoop n (root + 1 - 2) 2

/-- `while (nb % i == 0) nb = nb / i` counting the turns
(arith.h:497-503, 508-514, 556-562, 572-578).  Diverges for `nb = 0`. -/
def strip (i : Nat) : Nat → Nat → Nat → Res (Nat × Nat)
  | 0, _, _ => .error .diverges
  | fuel + 1, nb, occ =>
    if nb % i = 0 then strip i fuel (nb / i) (occ + 1) else .ok (nb, occ)

/-- loop over odd `i` of `factor_prime` (arith.h:570-583): the accumulated
`primes` and `exponent` vectors are kept as one list of pairs -/
def factorLoop (b : Nat) : Nat → Nat → Nat → List (Nat × Nat) → Res (Nat × List (Nat × Nat))
  | 0, _, _, _ => .error .diverges
  | fuel + 1, i, nb, acc =>
    if i ≤ sqrt b nb then do
      let (nb', occ) ← strip i (nb + 1) nb 0
      factorLoop b fuel (i + 2) nb' (if occ > 0 then acc ++ [(i, occ)] else acc)
    else .ok (nb, acc)

/-- `factor_prime` (arith.h:548-589): the list of `(primes[i], exponent[i])`.
Both output vectors are empty on entry, as in every call of the library. -/
def factor_prime (b nb : Nat) : Res (List (Nat × Nat)) := do
  let (nb, occ) ← strip 2 (nb + 1) nb 0
  let acc := if occ > 0 then [(2, occ)] else []
  cassert (nb % 2 == 1)
  let (nb, acc) ← factorLoop b (nb + 1) 3 nb acc
  pure (if nb > 2 then acc ++ [(nb, 1)] else acc)

/-- loop over odd `i` of `factor_distinct_prime` (arith.h:506-515).  The
`last_found` test makes each prime pushed once per `i`. -/
def factorDistinctLoop (b : Nat) : Nat → Nat → Nat → List Nat → Res (Nat × List Nat)
  | 0, _, _, _ => .error .diverges
  | fuel + 1, i, nb, acc =>
    if i ≤ sqrt b nb then do
      let (nb', occ) ← strip i (nb + 1) nb 0
      factorDistinctLoop b fuel (i + 2) nb' (if occ > 0 then acc ++ [i] else acc)
    else .ok (nb, acc)

/-- `factor_distinct_prime` (arith.h:491-522) -/
def factor_distinct_prime (b nb : Nat) : Res (List Nat) := do
  let (nb, occ) ← strip 2 (nb + 1) nb 0
  let acc := if occ > 0 then [2] else []
  cassert (nb % 2 == 1)
  let (nb, acc) ← factorDistinctLoop b (nb + 1) 3 nb acc
  pure (if nb > 2 then acc ++ [nb] else acc)

/-- `get_proper_divisors(nb, primes)` (arith.h:533-545) -/
def get_proper_divisors_from (nb : Nat) (primes : List Nat) : List Nat :=
  (primes.filter (fun p => decide (p < nb))).map (fun p => nb / p)

/-- `get_proper_divisors(nb)` (arith.h:525-530) -/
def get_proper_divisors (b nb : Nat) : Res (List Nat) := do
  let primes ← factor_distinct_prime b nb
  pure (get_proper_divisors_from nb primes)

/-- loop of `get_all_divisors` (arith.h:624-630): `k` turns from `i` -/
def allDivLoop (n : Nat) : Nat → Nat → List Nat → List Nat → List Nat × List Nat
  | 0, _, ds, es => (ds, es)
  | k + 1, i, ds, es =>
    if n % i = 0 then allDivLoop n k (i + 1) (ds ++ [i]) (es ++ [n / i])
    else allDivLoop n k (i + 1) ds es

/-- `get_all_divisors` (arith.h:618-634) -/
def get_all_divisors (b n : Nat) : List Nat :=
  let r := allDivLoop n (sqrt b n) 1 [] []
  r.1 ++ r.2.reverse

/-- `for (i = order / n; i >= 1; i--) if (order % i == 0) return order / i;
assert(false)` (arith.h:654-660) -/
def codeLenDown (order : Nat) : Nat → Res Nat
  | 0 => .error .assertFail
  | i + 1 => if order % (i + 1) = 0 then .ok (order / (i + 1)) else codeLenDown order i

/-- `for (i = n; i <= nb_sqrt; i++) if (order % i == 0) return i; return order`
(arith.h:662-669), `k` turns left -/
def codeLenUp (order : Nat) : Nat → Nat → Nat
  | 0, _ => order
  | k + 1, i => if order % i = 0 then i else codeLenUp order k (i + 1)

/-- `get_code_len` (arith.h:642-670) -/
def get_code_len (b order n : Nat) : Res Nat :=
  if n = 0 then ub
  else if order % n = 0 then .ok n
  else if order < n then .error .assertFail
  else
    let nb_sqrt := sqrt b order
    if n > nb_sqrt then codeLenDown order (order / n)
    else .ok (codeLenUp order (nb_sqrt + 1 - n) n)

/-- inner loop of `get_code_len_high_compo` (arith.h:702-707) over the factors
`factors[0..i]`; `none` when it ends without returning, with the new `x` -/
def highCompoBack (n : Nat) : List Nat → Nat → Res (Nat ⊕ Nat)
  | [], x => .ok (.inr x)
  | f :: fs, x =>
    if f = 0 then ub
    else
      let x' := x / f
      if x' < n then .ok (.inl (x' * f)) else highCompoBack n fs x'

/-- outer loop of `get_code_len_high_compo` (arith.h:698-709): `pre` are the
factors already visited, `post` those to visit -/
def highCompoLoop (b n : Nat) : List Nat → List Nat → Nat → Res Nat
  | _, [], _ => .error .assertFail
  | pre, f :: post, x =>
    let x := wrap b (x * f)
    if x ≥ n then
      match highCompoBack n (pre ++ [f]) x with
      | .error e => .error e
      | .ok (.inl r) => .ok (wrap b r)
      | .ok (.inr x) => highCompoLoop b n (pre ++ [f]) post x
    else highCompoLoop b n (pre ++ [f]) post x

/-- `get_code_len_high_compo(factors, n)` (arith.h:692-712) -/
def get_code_len_high_compo_factors (b : Nat) (factors : List Nat) (n : Nat) : Res Nat :=
  highCompoLoop b n [] factors 1

/-- `get_prime_factors(primes, exponents)` (arith.h:760-774) -/
def get_prime_factors_from (l : List (Nat × Nat)) : List Nat :=
  l.flatMap (fun pe => List.replicate pe.2 pe.1)

/-- `get_prime_factors(nb)` (arith.h:742-750) -/
def get_prime_factors (b nb : Nat) : Res (List Nat) := do
  let l ← factor_prime b nb
  pure (get_prime_factors_from l)

/-- `get_coprime_factors` (arith.h:719-735) -/
def get_coprime_factors (b nb : Nat) : Res (List Nat) := do
  let l ← factor_prime b nb
  pure (l.map (fun pe => exp b pe.1 pe.2))

/-- `get_code_len_high_compo(order, n)` (arith.h:679-684) -/
def get_code_len_high_compo (b order n : Nat) : Res Nat := do
  cassert (decide (order ≥ n))
  let fs ← get_prime_factors b order
  get_code_len_high_compo_factors b fs n

end Quad.Arith
