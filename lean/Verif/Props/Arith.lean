import Verif.Lemmas.ArithMach
import Verif.Lemmas.ArithFactor
import Mathlib.Tactic.NormNum.Prime

/-!
# Properties of src/arith.h (C01 - C08, C46)

Specifications use Mathlib notions only: `Nat.Prime`, `Nat.gcd`, `jacobiSym`,
`Nat.sqrt`, divisibility.  `b` is the width in bits of the word type `T`.
-/

namespace Quad.Props
open Quad Quad.Arith NumberTheorySymbols

/-! ## C01 -/

/-- C01: `is_power_of_2(n)` is true exactly for the powers of two. -/
theorem C01_is_power_of_2 (n : Int) : is_power_of_2 n = true ↔ ∃ k : Nat, n = 2 ^ k :=
  is_power_of_2_iff n

/-- C01: `ceil2(n)` is the least power of two that is at least `n`. -/
theorem C01_ceil2 {b n : Nat} (hn : 0 < n) (hb : n < 2 ^ (b - 1)) :
    ∃ k, ceil2 b (n : Int) = .ok (2 ^ k) ∧ n ≤ 2 ^ k ∧ ∀ j, n ≤ 2 ^ j → 2 ^ k ≤ 2 ^ j :=
  ceil2_spec hn hb

/-- C01: `log2(n)` is the floor of the base-2 logarithm of a positive `n`. -/
theorem C01_log2 {n : Nat} (hn : 0 < n) :
    ∃ r, log2 (n : Int) = .ok r ∧ 2 ^ r ≤ n ∧ n < 2 ^ (r + 1) :=
  ⟨_, log2_eq hn, Nat.pow_log_le_self 2 (by omega), Nat.lt_pow_succ_log_self (by norm_num) n⟩

/-- C01: `log2` throws `DomainError` exactly at 0. -/
theorem C01_log2_domain (n : Int) : log2 n = .error (.throws .domainError) ↔ n = 0 := by
  constructor
  · intro h
    by_contra hn
    unfold log2 at h
    rw [if_neg hn] at h
    split at h <;> cases h
  · rintro rfl; rfl

/-- C01: `exp2(n)` is `2^n` while that fits the word type. -/
theorem C01_exp2 {b n : Nat} (h : n < b) : exp2 b n = .ok (2 ^ n) := exp2_eq h

example : ceil2 32 (5 : Nat) = .ok 8 := by decide +kernel
example : (0 : Nat) < 1000 ∧ 1000 < 2 ^ (32 - 1) := by norm_num

/-! ## C02 -/

/-- C02: `gcd(u, v)` is the greatest common divisor. -/
theorem C02_gcd (u v : Nat) : Arith.gcd u v = .ok (Nat.gcd u v) := gcd_eq u v

/-- The type of `w` bits holds `x` and `-x`. -/
def Symmetric (w : Nat) (x : Int) : Prop := -2 ^ (w - 1) < x ∧ x < 2 ^ (w - 1)

theorem Symmetric.abs_le {w : Nat} {x : Int} (h : Symmetric w x) : |x| ≤ 2 ^ (w - 1) - 1 := by
  have h1 := h.1
  have h2 := h.2
  rw [_root_.abs_le]; constructor <;> omega

/-- C02: `extended_gcd(a, c)` on the signed type of `w` bits terminates without overflow; the first Bezout pair gives the
value returned, the value divides both arguments and every common divisor divides it.  The least value of the type is left
out: see `C02_least_value`. -/
theorem C02_extended_gcd_partial {w : Nat} {a c : Int} (ha : Symmetric w a) (hc : Symmetric w c) :
    ∃ st, extended_gcd (.signed w) a c = .ok st ∧ a * st.oldS + c * st.oldT = st.oldR ∧
      st.oldR ∣ a ∧ st.oldR ∣ c ∧ ∀ d : Int, d ∣ a → d ∣ c → d ∣ st.oldR := by
  obtain ⟨st, e, hi, hr⟩ := extended_gcd_spec (SInt.holds_signed (w := w) (sub_one_lt _)) ha.abs_le hc.abs_le
  have hg : (Int.gcd st.oldR st.r) = Int.gcd a c := hi.gcd
  rw [hr, Int.gcd_zero_right] at hg
  have h1 : (st.oldR.natAbs : Int) ∣ a := by rw [hg]; exact Int.gcd_dvd_left ..
  have h2 : (st.oldR.natAbs : Int) ∣ c := by rw [hg]; exact Int.gcd_dvd_right ..
  refine ⟨st, e, hi.bez0, Int.natAbs_dvd.1 h1, Int.natAbs_dvd.1 h2, ?_⟩
  intro d hd1 hd2
  rw [← hi.bez0]
  exact dvd_add (Dvd.dvd.mul_right hd1 _) (Dvd.dvd.mul_right hd2 _)

/-- C02: on the least value of the type the division of the first step overflows. -/
theorem C02_least_value {w : Nat} (hw : 1 < w) : extended_gcd (.signed w) (-2 ^ (w - 1)) (-1) = ub := by
  have hp : (0 : Int) < 2 ^ (w - 1) := by positivity
  have hq : Int.tdiv (-2 ^ (w - 1)) (-1) = 2 ^ (w - 1) := by rw [Int.tdiv_neg, Int.neg_tdiv]; simp
  unfold extended_gcd egcdLoop
  rw [if_neg (by simp)]
  simp only [hq, SInt.norm]
  rw [if_neg (by omega)]
  rfl

/-- C02: on non-negative arguments the value is the gcd itself. -/
theorem C02_extended_gcd_nonneg {w : Nat} {a c : Int} (ha : 0 ≤ a) (ha' : a < 2 ^ (w - 1)) (hc : 0 ≤ c)
    (hc' : c < 2 ^ (w - 1)) :
    ∃ st, extended_gcd (.signed w) a c = .ok st ∧ a * st.oldS + c * st.oldT = st.oldR ∧
      st.oldR = Int.gcd a c := by
  have h0 : (0 : Int) < 2 ^ (w - 1) := by positivity
  have h1 : Symmetric w a := ⟨by omega, ha'⟩
  have h2 : Symmetric w c := ⟨by omega, hc'⟩
  rw [extended_gcd_eq (SInt.holds_signed (w := w) (sub_one_lt _)) h1.abs_le h2.abs_le]
  exact extended_gcdZ_nonneg ha hc

/-- C02: the "quotients by the GCD" are the quotients up to sign, and the first Bezout coefficient is at most half of `c / gcd`. -/
theorem C02_quotients {w : Nat} {a c : Int} (ha : Symmetric w a) (hc : Symmetric w c) (h0 : c ≠ 0) :
    ∃ st, extended_gcd (.signed w) a c = .ok st ∧ |st.t| * |st.oldR| = |a| ∧ |st.s| * |st.oldR| = |c| ∧
      2 * (|st.oldS| * |st.oldR|) ≤ |c| := by
  rw [extended_gcd_eq (SInt.holds_signed (w := w) (sub_one_lt _)) ha.abs_le hc.abs_le]
  obtain ⟨st, e, _, hr⟩ := extended_gcdZ_spec a c
  have hm := egcdLoopZ_MI _ _ st (MI.init a c) e
  have h1 := hm.consS
  have h2 := hm.consT
  rw [hr, abs_zero, mul_zero, zero_add] at h1 h2
  exact ⟨st, e, h2, h1, extended_gcdZ_half h0 e⟩

/-- C02: their signs are not those of the quotients: for 240 and 46, of gcd 2, they are -120 and 23. -/
theorem C02_quotient_signs : ∃ st, extended_gcd (.signed 64) 240 46 = .ok st ∧ st.oldR = 2 ∧ st.t = -120 ∧ st.s = 23 :=
  ⟨_, rfl, by decide +kernel, by decide +kernel, by decide +kernel⟩

/-- C02: with `T` = `__uint128_t` the value returned is the gcd, and the Bezout identity holds modulo `2^128` only. -/
theorem C02_int256_partial {a c : Int} (ha : 0 ≤ a) (ha' : a < 2 ^ 128) (hc : 0 ≤ c) (hc' : c < 2 ^ 128) :
    ∃ st, extended_gcd .int256 a c = .ok st ∧ st.oldR = Int.gcd a c ∧
      a * st.oldS + c * st.oldT ≡ st.oldR [ZMOD 2 ^ 128] := by
  obtain ⟨st, e, h1, h2⟩ := extended_gcdZ_nonneg ha hc
  refine ⟨st.low, by rw [extended_gcd_int256 ha ha' hc hc', e]; rfl, h2, ?_⟩
  have h3 : st.low.oldS ≡ st.oldS [ZMOD 2 ^ 128] := Int.mod_modEq _ _
  have h4 : st.low.oldT ≡ st.oldT [ZMOD 2 ^ 128] := Int.mod_modEq _ _
  have h5 := (h3.mul_left a).add (h4.mul_left c)
  rw [h1] at h5
  exact h5

/-- C02: it does not hold between integers: for 3 and 5 the second coefficient is `2^128 - 1`. -/
theorem C02_int256_not_bezout : ∃ st, extended_gcd .int256 3 5 = .ok st ∧ st.oldR = 1 ∧
    3 * st.oldS + 5 * st.oldT ≠ st.oldR :=
  ⟨_, rfl, by decide +kernel, by decide +kernel⟩

example : Symmetric 64 (-240) ∧ Symmetric 64 46 := by constructor <;> (constructor <;> norm_num)
example : ∃ st, extended_gcd (.signed 64) (-240) 46 = .ok st ∧ st.oldR = 2 := ⟨_, rfl, by decide +kernel⟩

/-! ## C03 -/

/-- C03: for pairwise coprime moduli whose product fits the word type, and reduced residues, `chinese_remainder`
computes without overflow and returns the representative below their product that satisfies every congruence. -/
theorem C03_chinese_remainder_partial {b : Nat} (hb : 1 < b) (l : List (Nat × Nat)) (hres : ∀ an ∈ l, an.1 < an.2)
    (hco : l.Pairwise (fun x y => Nat.Coprime x.2 y.2)) (hfit : (l.map (fun an => an.2)).prod ≤ 2 ^ b) :
    ∃ x : Nat, chinese_remainder b l = .ok x ∧ x < (l.map (fun an => an.2)).prod ∧ ∀ an ∈ l, x ≡ an.1 [MOD an.2] := by
  have hs := sum_lt_prod l hres
  have h2 : (l.map (fun an => an.2)).prod < 2 ^ (2 * b - 1) :=
    lt_of_le_of_lt hfit (Nat.pow_lt_pow_right (by norm_num) (by omega))
  have h3 : (l.map (fun an => an.2)).prod * (l.map (fun an => an.1)).sum < 2 ^ (2 * b) := by
    have h4 : 2 ^ (2 * b) = 2 ^ b * 2 ^ b := by rw [← pow_add]; congr 1; omega
    rw [h4]
    exact lt_of_lt_of_le (Nat.mul_lt_mul_of_pos_left hs (by omega)) (Nat.mul_le_mul hfit hfit)
  obtain ⟨x, e, hx, hc⟩ := chinese_remainder_spec l (fun an h => by have := hres an h; omega) hco h2 h3
  rw [Nat.mod_eq_of_lt (by omega)] at e
  exact ⟨x, e, hx, hc⟩

/-- C03: residues need not be reduced if the product of the moduli times their sum fits the unsigned double-size type; and if the product
of the moduli does not fit the word type, the low bits of the representative are returned. -/
theorem C03_wide_partial {b : Nat} (l : List (Nat × Nat)) (hpos : ∀ an ∈ l, 0 < an.2)
    (hco : l.Pairwise (fun x y => Nat.Coprime x.2 y.2)) (hP : (l.map (fun an => an.2)).prod < 2 ^ (2 * b - 1))
    (hA : (l.map (fun an => an.2)).prod * (l.map (fun an => an.1)).sum < 2 ^ (2 * b)) :
    ∃ x : Nat, chinese_remainder b l = .ok (x % 2 ^ b) ∧ x < (l.map (fun an => an.2)).prod ∧ ∀ an ∈ l, x ≡ an.1 [MOD an.2] :=
  chinese_remainder_spec l hpos hco hP hA

/-- C03: with moduli 257 and 256 of type `uint16_t` and reduced residues the value returned satisfies neither congruence modulo 257 ... -/
theorem C03_truncated : chinese_remainder 16 [(65, 257), (64, 256)] = .ok 64 ∧ 64 % 257 ≠ 65 := by decide +kernel

/-- C03: ... and with larger moduli, or residues that are not reduced, the computation overflows. -/
theorem C03_overflow : chinese_remainder 16 [(1, 65535), (2, 65534)] = ub ∧
    chinese_remainder 16 [(65535, 29), (65535, 31), (65535, 37)] = ub := by decide +kernel

example : chinese_remainder 32 [(4, 107), (2, 74)] = .ok 5996 := by decide +kernel
example : ([(4, 107), (2, 74)] : List (Nat × Nat)).Pairwise (fun x y => Nat.Coprime x.2 y.2) ∧
    (([(4, 107), (2, 74)] : List (Nat × Nat)).map (fun an => an.2)).prod ≤ 2 ^ 32 := by
  decide

/-! ## C04 -/

/-- C04: `factor_prime(n)` returns primes in increasing order with positive
exponents, and the product of the prime powers is `n`. -/
theorem C04_factor_prime {b n : Nat} (hb : b % 2 = 0) (hb0 : 0 < b) (hn : n < 2 ^ b) (h1 : 0 < n) :
    ∃ l, factor_prime b n = .ok l ∧ (∀ pe ∈ l, pe.1.Prime ∧ 0 < pe.2) ∧
      l.Pairwise (fun x y => x.1 < y.1) ∧ (l.map (fun pe => pe.1 ^ pe.2)).prod = n :=
  factor_prime_spec hb hb0 hn h1

/-- C04: the exponent reported for `p` is the multiplicity of `p` in `n`. -/
theorem C04_factor_prime_exponent {b n : Nat} (hb : b % 2 = 0) (hb0 : 0 < b) (hn : n < 2 ^ b) (h1 : 0 < n) :
    ∃ l, factor_prime b n = .ok l ∧ ∀ p e, (p, e) ∈ l ↔ (p.Prime ∧ e = n.factorization p ∧ 0 < e) := by
  obtain ⟨l, el, hl⟩ := factor_prime_spec hb hb0 hn h1
  refine ⟨l, el, ?_⟩
  intro p e
  constructor
  · intro hm
    exact ⟨(hl.1 _ hm).1, (hl.factorization hm).symm, (hl.1 _ hm).2⟩
  · rintro ⟨hp, rfl, he⟩
    have hd : p ∣ n := Nat.dvd_of_factorization_pos he.ne'
    obtain ⟨⟨q, e⟩, hm, rfl⟩ := hl.mem hp hd
    rw [hl.factorization hm]; exact hm

/-- C04: `factor_distinct_prime(n)` returns exactly the primes dividing `n`, ascending. -/
theorem C04_factor_distinct_prime {b n : Nat} (hb : b % 2 = 0) (hb0 : 0 < b) (hn : n < 2 ^ b)
    (h1 : 0 < n) :
    ∃ l, factor_distinct_prime b n = .ok l ∧ l.Pairwise (· < ·) ∧ ∀ p, p ∈ l ↔ p.Prime ∧ p ∣ n := by
  obtain ⟨l, el, hl⟩ := factor_prime_spec hb hb0 hn h1
  refine ⟨l.map Prod.fst, by rw [factor_distinct_eq, el]; rfl, ?_, ?_⟩
  · rw [List.pairwise_map]; exact hl.2.1
  · intro p
    rw [List.mem_map]
    constructor
    · rintro ⟨pe, hm, rfl⟩; exact ⟨(hl.1 pe hm).1, hl.dvd hm⟩
    · rintro ⟨hp, hd⟩; exact hl.mem hp hd

/-- C04: `get_prime_factors(n)` lists the primes with multiplicity. -/
theorem C04_get_prime_factors {b n : Nat} (hb : b % 2 = 0) (hb0 : 0 < b) (hn : n < 2 ^ b) (h1 : 0 < n) :
    ∃ l, get_prime_factors b n = .ok l ∧ (∀ p ∈ l, p.Prime) ∧ l.Pairwise (· ≤ ·) ∧ l.prod = n :=
  get_prime_factors_spec hb hb0 hn h1

/-- C04: `get_coprime_factors(n)` returns pairwise coprime factors, each at
least 2, whose product is `n`. -/
theorem C04_get_coprime_factors {b n : Nat} (hb : b % 2 = 0) (hb0 : 0 < b) (hn : n < 2 ^ b) (h1 : 0 < n) :
    ∃ l, get_coprime_factors b n = .ok l ∧ l.Pairwise Nat.Coprime ∧ l.prod = n ∧
      ∀ f ∈ l, ∃ p e, p.Prime ∧ 0 < e ∧ f = p ^ e := by
  obtain ⟨l, el, h2, h3, h4⟩ := factor_prime_spec hb hb0 hn h1
  have hmap : l.map (fun pe => exp b pe.1 pe.2) = l.map (fun pe => pe.1 ^ pe.2) := by
    apply List.map_congr_left
    intro pe hm
    rw [exp_eq hb0, wrap_of_lt]
    refine lt_of_le_of_lt (Nat.le_of_dvd h1 ?_) hn
    rw [← h4]
    exact List.dvd_prod (List.mem_map.2 ⟨pe, hm, rfl⟩)
  refine ⟨l.map (fun pe => pe.1 ^ pe.2), by simp [get_coprime_factors, el, hmap, pure, Except.pure], ?_, h4, ?_⟩
  · rw [List.pairwise_map]
    refine List.Pairwise.imp_of_mem ?_ h3
    intro x y hx hy hxy
    exact Nat.Coprime.pow _ _ ((Nat.coprime_primes (h2 x hx).1 (h2 y hy).1).2 (by omega))
  · intro f hf
    obtain ⟨pe, hm, rfl⟩ := List.mem_map.1 hf
    exact ⟨pe.1, pe.2, (h2 pe hm).1, (h2 pe hm).2, rfl⟩

/-- C04: `get_proper_divisors(n)` returns exactly the `n/p` for the primes
`p < n` dividing `n`. -/
theorem C04_get_proper_divisors {b n : Nat} (hb : b % 2 = 0) (hb0 : 0 < b) (hn : n < 2 ^ b) (h1 : 0 < n) :
    ∃ l, get_proper_divisors b n = .ok l ∧ ∀ d, d ∈ l ↔ ∃ p, p.Prime ∧ p ∣ n ∧ p < n ∧ d = n / p := by
  obtain ⟨l, el, h2, h3⟩ := C04_factor_distinct_prime hb hb0 hn h1
  refine ⟨get_proper_divisors_from n l, by simp [get_proper_divisors, el, pure, Except.pure], ?_⟩
  intro d
  simp only [get_proper_divisors_from, List.mem_map, List.mem_filter, decide_eq_true_eq]
  constructor
  · rintro ⟨p, ⟨hm, hlt⟩, rfl⟩
    exact ⟨p, ((h3 p).1 hm).1, ((h3 p).1 hm).2, hlt, rfl⟩
  · rintro ⟨p, hp, hd, hlt, rfl⟩
    exact ⟨p, ⟨(h3 p).2 ⟨hp, hd⟩, hlt⟩, rfl⟩

example : factor_prime 32 360 = .ok [(2, 3), (3, 2), (5, 1)] := by decide +kernel
example : (32 % 2 = 0) ∧ (0 < 32) ∧ (360 < 2 ^ 32) ∧ (0 < 360) := by norm_num

/-! ## C05 -/

/-- C05 (part that holds for every `n`): the list contains exactly the divisors,
in non-decreasing order.  Missing: absence of repetition, which fails for
perfect squares (`C05_duplicates_on_squares`). -/
theorem C05_get_all_divisors_partial {b n : Nat} (hb : b % 2 = 0) (hb0 : 0 < b) (hn : n < 2 ^ b)
    (hpos : 0 < n) :
    (∀ d, d ∈ get_all_divisors b n ↔ d ∣ n) ∧ (get_all_divisors b n).Pairwise (· ≤ ·) :=
  ⟨fun _ => get_all_divisors_mem hb hb0 hn hpos, (get_all_divisors_sorted hb hb0 hn).1⟩

/-- C05 for every `n` that is not a perfect square: strictly increasing, so
without repetition. -/
theorem C05_get_all_divisors_nonsquare_partial {b n : Nat} (hb : b % 2 = 0) (hb0 : 0 < b)
    (hn : n < 2 ^ b) (hpos : 0 < n) (hns : ¬ ∃ r, r * r = n) :
    (∀ d, d ∈ get_all_divisors b n ↔ d ∣ n) ∧ (get_all_divisors b n).Pairwise (· < ·) :=
  ⟨fun _ => get_all_divisors_mem hb hb0 hn hpos, (get_all_divisors_sorted hb hb0 hn).2 hns⟩

/-- C05 is violated on every perfect square: its root is listed twice. -/
theorem C05_duplicates_on_squares {b r : Nat} (hb : b % 2 = 0) (hb0 : 0 < b) (hr : 0 < r)
    (hn : r * r < 2 ^ b) : 2 ≤ (get_all_divisors b (r * r)).count r := by
  rw [get_all_divisors_eq hb hb0 hn, List.count_append, List.count_reverse]
  have h1 : r ∈ ((List.range (Nat.sqrt (r * r))).map (· + 1)).filter (fun d => decide ((r * r) % d = 0)) := by
    rw [mem_small]; exact ⟨hr, le_refl _, ⟨r, rfl⟩⟩
  have h2 := List.count_pos_iff.2 h1
  have h3 : r ∈ (((List.range (Nat.sqrt (r * r))).map (· + 1)).filter
      (fun d => decide ((r * r) % d = 0))).map (fun d => r * r / d) :=
    List.mem_map.2 ⟨r, h1, Nat.mul_div_cancel _ hr⟩
  have h4 := List.count_pos_iff.2 h3
  omega

example : get_all_divisors 32 36 = [1, 2, 3, 4, 6, 6, 9, 12, 18, 36] := by decide +kernel
example : get_all_divisors 32 12 = [1, 2, 3, 4, 6, 12] := by decide +kernel
example : ¬ ∃ r, r * r = 12 := by rintro ⟨r, h⟩; have : r < 4 := by nlinarith
                                  interval_cases r <;> omega

/-! ## C06 -/

/-- C06 for every `n ≥ 2`.  Missing: `n = 0` and `n = 1`, where the code answers
true (`C06_zero_one_reported_prime`). -/
theorem C06_is_prime_partial {b n : Nat} (hb : b % 2 = 0) (hb0 : 0 < b) (hn : n < 2 ^ b) (h2 : 2 ≤ n) :
    is_prime b n = true ↔ n.Prime := is_prime_iff hb hb0 hn h2

/-- C06 is violated: 0 and 1 are reported prime, for every word width in use. -/
theorem C06_zero_one_reported_prime {b n : Nat} (hb : b % 2 = 0) (hb0 : 0 < b) (hn : n < 2) :
    is_prime b n = true ∧ ¬ n.Prime := by
  have h2b : 2 < 2 ^ b ∨ 2 = 2 ^ b := by
    have : 2 ^ 1 ≤ 2 ^ b := Nat.pow_le_pow_right (by norm_num) hb0
    omega
  have hlt : n < 2 ^ b := by omega
  refine ⟨?_, fun h => by have := h.two_le; omega⟩
  unfold is_prime
  rw [if_neg (by omega)]
  simp only [sqrt_eq hb hb0 hlt]
  have : Nat.sqrt n ≤ n := Nat.sqrt_le_self n
  rw [isPrimeLoop_iff]
  intro j h1 h3; omega

example : is_prime 32 65537 = true := by decide +kernel
example : is_prime 32 65535 = false := by decide +kernel

/-! ## C07 -/

/-- C07: `jacobi(n, m)` is the Jacobi symbol for every odd positive `m`. -/
theorem C07_jacobi (n : Int) {m : Nat} (hm : m % 2 = 1) : jacobi n (m : Int) = .ok (J(n | m)) :=
  jacobi_eq n hm

/-- C07: `jacobi` refuses (throws `DomainError`) exactly the even and the
negative second arguments. -/
theorem C07_jacobi_refuses (n m : Int) :
    jacobi n m = .error (.throws .domainError) ↔ (m % 2 = 0 ∨ m < 0) := by
  constructor
  · intro h
    by_contra hc
    have hodd : m.toNat % 2 = 1 := by omega
    have := jacobi_eq n hodd
    rw [show ((m.toNat : Nat) : Int) = m by omega, h] at this
    cases this
  · rintro (h | h)
    · exact jacobi_even n m h
    · exact jacobi_neg n m h

/-- C07: the Solovay-Strassen test accepts every odd prime, whatever bases are
drawn (`rand` is the sequence of draws). -/
theorem C07_solovay_strassen {b p : Nat} (rand : Nat → Nat) (hb : 2 ≤ b) (hp : p.Prime)
    (hodd : p ≠ 2) (hpb : p * p ≤ 2 ^ b) : solovay_strassen b p rand = .ok true :=
  solovay_strassen_prime rand hb hp hodd hpb

example : jacobi 1001 9907 = .ok (-1) := by decide +kernel
example : (257 : Nat).Prime ∧ 257 ≠ 2 ∧ 257 * 257 ≤ 2 ^ 32 := by norm_num

/-! ## C08 -/

/-- C08: `get_code_len(order, n)` returns a divisor of `order` that is at least `n`. -/
theorem C08_get_code_len {b order n : Nat} (hb : b % 2 = 0) (hb0 : 0 < b) (ho : order < 2 ^ b)
    (hn : 0 < n) (hno : n ≤ order) :
    ∃ r, get_code_len b order n = .ok r ∧ r ∣ order ∧ n ≤ r := by
  obtain ⟨r, e, h1, h2, _⟩ := get_code_len_spec hb hb0 ho hn hno
  exact ⟨r, e, h1, h2⟩

/-- C08 (minimality, the part that holds): if `n` exceeds the square root of
the order, or some divisor lies between `n` and the square root, the result is
the least divisor that is at least `n`.  Missing: the other cases, where the
code returns the whole order (`C08_get_code_len_not_minimal`). -/
theorem C08_get_code_len_minimal_partial {b order n : Nat} (hb : b % 2 = 0) (hb0 : 0 < b)
    (ho : order < 2 ^ b) (hn : 0 < n) (hno : n ≤ order)
    (hcase : order < n * n ∨ ∃ d, n ≤ d ∧ d * d ≤ order ∧ d ∣ order) :
    ∃ r, get_code_len b order n = .ok r ∧ r ∣ order ∧ n ≤ r ∧ ∀ d, n ≤ d → d ∣ order → r ≤ d := by
  obtain ⟨r, e, h1, h2, h3⟩ := get_code_len_spec hb hb0 ho hn hno
  refine ⟨r, e, h1, h2, h3 ?_⟩
  rcases hcase with h | ⟨d, a1, a2, a3⟩
  · exact Or.inl (Nat.sqrt_lt.2 h)
  · exact Or.inr ⟨d, a1, Nat.le_sqrt.2 a2, a3⟩

/-- C08 minimality is violated: for order 22 and n = 3 the code answers 22
although 11 divides 22. -/
theorem C08_get_code_len_not_minimal :
    get_code_len 32 22 3 = .ok 22 ∧ 11 ∣ 22 ∧ 3 ≤ 11 ∧ 11 < 22 := by
  refine ⟨by decide +kernel, by norm_num, by norm_num, by norm_num⟩

/-- C08: `get_code_len_high_compo(order, n)` returns a divisor of `order` that
is at least `n`, for `2 ≤ n ≤ order`. -/
theorem C08_get_code_len_high_compo_partial {b order n : Nat} (hb : b % 2 = 0) (hb0 : 0 < b)
    (ho : order < 2 ^ b) (hn : 2 ≤ n) (hno : n ≤ order) :
    ∃ r, get_code_len_high_compo b order n = .ok r ∧ r ∣ order ∧ n ≤ r :=
  get_code_len_high_compo_spec hb hb0 ho hn hno

/-- C08 is violated at `n = 1`: `get_code_len_high_compo(256, 1)` is 0. -/
theorem C08_high_compo_one : get_code_len_high_compo 32 256 1 = .ok 0 := by decide +kernel

example : get_code_len_high_compo 32 65536 9 = .ok 16 := by decide +kernel
example : get_code_len 32 65536 9 = .ok 16 := by decide +kernel

/-! ## C46 -/

/-- C46: `exp_mod(base, e, m)` is `base^e mod m` when `m*m` fits the word. -/
theorem C46_exp_mod {b base e m : Nat} (hm : 0 < m) (hmm : m * m ≤ 2 ^ b) :
    exp_mod b base e m = .ok (base ^ e % m) := exp_mod_eq hm hmm

/-- C46: `exp(base, e)` is `base^e` when that fits the word. -/
theorem C46_exp {b base e : Nat} (hb : 0 < b) (h : base ^ e < 2 ^ b) : exp b base e = base ^ e := by
  rw [exp_eq hb, wrap_of_lt h]

/-- C46: `sqrt(n)` is the integer square root for every word `n`. -/
theorem C46_sqrt {b n : Nat} (hb : b % 2 = 0) (hb0 : 0 < b) (hn : n < 2 ^ b) :
    sqrt b n * sqrt b n ≤ n ∧ n < (sqrt b n + 1) * (sqrt b n + 1) := by
  rw [sqrt_eq hb hb0 hn]
  exact ⟨Nat.sqrt_le n, Nat.lt_succ_sqrt n⟩

example : exp_mod 32 3 200 257 = .ok (3 ^ 200 % 257) := by decide +kernel
example : sqrt 32 4294967295 = 65535 := by decide +kernel

end Quad.Props
