import Verif.Lemmas.RingRoot
import Mathlib.Tactic.NormNum.Prime

/-!
# Properties of src/gf_ring.h, gf_base.h, gf_prime.h (C09, C10, C11, C45)

`R.Fits` says that the modulus is at least 2, leaves one spare bit in the
element type and that its square fits the double-size type.
`IsPrimeField O p` says that `O` is what `init` builds for the prime modulus
`p` (the state every `gf::create<gf::Prime<T>>(p)` object is in).
-/

namespace Quad.Props
open Quad Quad.RingModN

/-- the two Fermat fields of the FNT codes, in the word types that use SIMD -/
def R257 : RingModN := ⟨16, 32, true, 257⟩
def R65537 : RingModN := ⟨32, 64, true, 65537⟩
def O257 : Obj := ⟨R257, [(2, 8)], List.replicate 8 2, [128], 3⟩
def O65537 : Obj := ⟨R65537, [(2, 16)], List.replicate 16 2, [32768], 3⟩

theorem prime257 : (257 : Nat).Prime := by norm_num
theorem prime65537 : (65537 : Nat).Prime := by norm_num

theorem isPrimeField257 : IsPrimeField O257 257 :=
  ⟨prime257, rfl, ⟨by decide, by decide, by decide⟩, rfl, rfl, by decide +kernel⟩
theorem isPrimeField65537 : IsPrimeField O65537 65537 :=
  ⟨prime65537, rfl, ⟨by decide, by decide +kernel, by decide +kernel⟩, rfl, rfl, by decide +kernel⟩

/-! ## C09 -/

/-- C09: every operation returns the reduced representative of the exact
modular result (so it satisfies `check`). -/
theorem C09_ring_ops {R : RingModN} (h : R.Fits) {x y : Nat} (hx : x < R.card) (hy : y < R.card) :
    R.add x y = (x + y) % R.card ∧
    R.sub x y = (x + R.card - y) % R.card ∧
    R.mul x y = x * y % R.card ∧
    R.neg x = (R.card - x) % R.card ∧
    R.check (R.add x y) = true ∧ R.check (R.sub x y) = true ∧ R.check (R.mul x y) = true ∧
    R.check (R.neg x) = true := by
  have := h.pos
  have hm : ∀ z, z % R.card < R.card := fun z => Nat.mod_lt _ (by omega)
  refine ⟨add_eq h hx hy, sub_eq h hx hy, mul_eq h hx hy, neg_eq h hx, ?_, ?_, ?_, ?_⟩ <;>
    simp only [check, decide_eq_true_eq]
  · rw [add_eq h hx hy]; exact hm _
  · rw [sub_eq h hx hy]; exact hm _
  · rw [mul_eq h hx hy]; exact hm _
  · rw [neg_eq h hx]; exact hm _

/-- C09: fast and naive exponentiation are both the modular power. -/
theorem C09_exp {R : RingModN} (h : R.Fits) {x : Nat} (hx : x < R.card) (e : Nat) :
    R.exp x e = x ^ e % R.card ∧ expNaive R.mul x e = x ^ e % R.card ∧ R.check (R.exp x e) = true := by
  have hpos := h.pos
  have hn := expNaive_sim (M := ZMod R.card) (mul := R.mul) (V := fun a => a < R.card)
    (φ := fun a => (a : ZMod R.card)) ⟨h.pos, by simp⟩
    (by
      intro a c ha hc
      refine ⟨by rw [mul_eq h ha hc]; exact Nat.mod_lt _ (by omega), ?_⟩
      rw [mul_eq h ha hc]; simp) hx e
  refine ⟨exp_eq h hx e, ?_, ?_⟩
  · refine cast_inj hn.1 (Nat.mod_lt _ (by omega)) ?_
    rw [hn.2]; simp
  · simp only [check, decide_eq_true_eq, exp_eq h hx e]
    exact Nat.mod_lt _ (by omega)

/-- The precondition on the modulus is needed: with a modulus using the top bit
of the word, `add` is wrong for some reduced operands. -/
theorem C09_add_needs_spare_bit {b : Nat} (hb : 1 < b) :
    ∃ R : RingModN, R.b = b ∧ R.card < 2 ^ R.b ∧ ∃ x y, x < R.card ∧ y < R.card ∧
      R.add x y ≠ (x + y) % R.card := by
  obtain ⟨c, hc⟩ : ∃ c, 2 ^ b = 4 * c := ⟨2 ^ (b - 2), by
    rw [show (4:Nat) = 2 ^ 2 by norm_num, ← pow_add]; congr 1; omega⟩
  have hcpos : 0 < c := by
    have := Nat.pow_pos (n := b) (show 0 < 2 by norm_num); omega
  refine ⟨⟨b, 2 * b, true, 2 ^ b - 1⟩, rfl, by simp only; omega, 2 ^ b - 2, 2 ^ b - 2,
    by simp only; omega, by simp only; omega, ?_⟩
  have e1 : wrap b (2 ^ b - 2 + (2 ^ b - 2)) = 2 ^ b - 4 := by
    unfold wrap
    rw [hc, show 4 * c - 2 + (4 * c - 2) = 4 * c - 4 + 4 * c by omega, Nat.add_mod_right,
      Nat.mod_eq_of_lt (by omega)]
  have e2 : (2 ^ b - 2 + (2 ^ b - 2)) % (2 ^ b - 1) = 2 ^ b - 3 := by
    rw [hc, show 4 * c - 2 + (4 * c - 2) = 4 * c - 3 + (4 * c - 1) by omega, Nat.add_mod_right,
      Nat.mod_eq_of_lt (by omega)]
  simp only [add, e1, e2]
  rw [if_neg (by omega)]
  omega

example : R65537.Fits := isPrimeField65537.fits
example : R65537.mul 65536 65536 = 1 := by decide +kernel

/-! ## C10 -/

/-- C10: the Bezout inverse (used by `inv`) and the exponent inverse agree and
are inverses, for every prime field and nonzero element.  Missing: the 128-bit
word type, where it fails (`C10_inv_wrong_for_uint128`). -/
theorem C10_inv_partial {O : Obj} {p : Nat} (H : IsPrimeField O p) {x : Nat} (h0 : x ≠ 0) (hx : x < p) :
    ∃ r, O.ring.inv x = .ok r ∧ r < p ∧ x * r % p = 1 ∧ O.inv_exp x = r := by
  have := Fact.mk H.prime
  have hc := H.card
  obtain ⟨r, e, h1, h2⟩ := inv_spec H.fits H.sgn (by rw [hc]; exact H.prime) h0 (by omega)
  rw [hc] at h1 h2
  have hp2 := H.prime.two_le
  refine ⟨r, e, h1, h2, ?_⟩
  unfold Obj.inv_exp
  rw [exp_eq H.fits (by omega), hc]
  refine cast_inj (Nat.mod_lt _ (by omega)) h1 ?_
  have hxr : (x : ZMod p) * r = 1 := by
    have : ((x * r : Nat) : ZMod p) = ((1 : Nat) : ZMod p) := by
      rw [ZMod.natCast_eq_natCast_iff]
      show x * r % p = 1 % p
      rw [h2, Nat.mod_eq_of_lt (by omega)]
    simpa using this
  have hne : (x : ZMod p) ≠ 0 := cast_ne_zero h0 hx
  rw [ZMod.natCast_mod, Nat.cast_pow, eq_inv_of_mul_eq_one_right hxr]
  apply eq_inv_of_mul_eq_one_right
  rw [← pow_succ', show p - 2 + 1 = p - 1 by omega]
  exact order_dvd hne

/-- C10: `div(a, c) * c = a` for every nonzero `c`.  Missing: as for `inv`. -/
theorem C10_div_partial {O : Obj} {p : Nat} (H : IsPrimeField O p) {x y : Nat} (hx : x < p) (h0 : y ≠ 0)
    (hy : y < p) : ∃ r, O.ring.div x y = .ok r ∧ r < p ∧ O.ring.mul r y = x := by
  have := Fact.mk H.prime
  have S := sim O H.card H.fits H.sgn
  obtain ⟨r, e, h1, h2⟩ := (sim O H.card H.fits H.sgn).div (a := x) (c := y) hx hy (cast_ne_zero h0 hy)
  refine ⟨r, e, h1, ?_⟩
  obtain ⟨h3, h4⟩ := (sim O H.card H.fits H.sgn).mul h1 (show (sim O H.card H.fits H.sgn).V y from hy)
  refine sim_inj O H.card H.fits H.sgn h3 hx ?_
  show (sim O H.card H.fits H.sgn).φ (O.gf.mul r y) = _
  rw [h4, h2]
  exact div_mul_cancel₀ _ (cast_ne_zero h0 hy)

/-- C10: `log(a, x)` returns the least exponent in `1 .. p-1` that works, and
throws `NoSolution` exactly when no exponent in that range works. -/
theorem C10_log {O : Obj} {p : Nat} (H : IsPrimeField O p) {a : Nat} (ha : a < p) (x : Nat) :
    (∃ e, O.ring.log a x = .ok e ∧ 1 ≤ e ∧ e < p ∧ a ^ e % p = x ∧
      ∀ j, 1 ≤ j → j < e → a ^ j % p ≠ x) ∨
    (O.ring.log a x = .error (.throws .noSolution) ∧ ∀ j, 1 ≤ j → j < p → a ^ j % p ≠ x) := by
  have hc := H.card
  have hp2 := H.prime.two_le
  have hexp : ∀ j, O.ring.exp a j = a ^ j % p := fun j => by rw [exp_eq H.fits (by omega), hc]
  have := logLoop_spec O.ring.exp a x (p - 1) 1
  unfold RingModN.log logNaive
  rw [hc]
  rcases this with ⟨e, h1, h2, h3, h4, h5⟩ | ⟨h1, h2⟩
  · left
    exact ⟨e, h1, h3, by omega, by rw [← hexp]; exact h2, fun j a b => by rw [← hexp]; exact h5 j a b⟩
  · right
    exact ⟨h1, fun j a b => by rw [← hexp]; exact h2 j a (by omega)⟩

/-- C10 is violated for the 128-bit word type: `Int256` is not signed, so
`inv(2)` in GF(257) comes back as `2^128 - 128`, which is not even reduced. -/
theorem C10_inv_wrong_for_uint128 :
    ({ b := 128, db := 128, sgn := false, card := 257 } : RingModN).inv 2 = .ok (2 ^ 128 - 128) := by
  decide +kernel

example : O65537.ring.inv 3 = .ok 21846 := by decide +kernel
example : (3 : Nat) ≠ 0 ∧ 3 < 65537 := by norm_num

/-! ## C11 -/

/-- C11: constructing a prime field never fails its internal assertion, and the
root found generates the multiplicative group. -/
theorem C11_init {R : RingModN} (h : R.Fits) (hp : R.card.Prime) (hb : R.b % 2 = 0) (hb0 : 0 < R.b) :
    ∃ O, R.init 0 = .ok O ∧ O.ring = R ∧ 0 < O.root ∧ O.root < R.card ∧
      orderOf (O.root : ZMod R.card) = R.card - 1 := by
  obtain ⟨O, e, h1, _, _, _, h5, h6, h7⟩ := init_spec h hp hb hb0
  exact ⟨O, e, h1, h5, h6, h7⟩

/-- C11: for every `n` dividing `p-1`, `get_nth_root(n)` has order exactly `n`. -/
theorem C11_get_nth_root {O : Obj} {p n : Nat} (H : IsPrimeField O p) (hn : n ∣ p - 1) :
    ∃ w, O.get_nth_root n = .ok w ∧ w < p ∧ orderOf (w : ZMod p) = n := by
  obtain ⟨w, e, h1, h2⟩ := H.get_nth_root_spec n
  rw [Nat.gcd_eq_left hn] at h2
  exact ⟨w, e, h1, h2.eq_orderOf.symm⟩

/-- C11: for any `n`, the order is `gcd(n, p-1)`. -/
theorem C11_get_nth_root_general {O : Obj} {p : Nat} (H : IsPrimeField O p) (n : Nat) :
    ∃ w, O.get_nth_root n = .ok w ∧ w < p ∧ orderOf (w : ZMod p) = Nat.gcd n (p - 1) := by
  obtain ⟨w, e, h1, h2⟩ := H.get_nth_root_spec n
  exact ⟨w, e, h1, h2.eq_orderOf.symm⟩

/-- C11: `get_order(x)` is the multiplicative order of every nonzero `x`. -/
theorem C11_get_order {O : Obj} {p x : Nat} (H : IsPrimeField O p) (hx : x < p) (h0 : x ≠ 0) :
    O.get_order x = .ok (orderOf (x : ZMod p)) := H.get_order_spec hx h0

/-- C11: `check_primitive_root` decides the generators among nonzero elements. -/
theorem C11_check_primitive_root {O : Obj} {p x : Nat} (H : IsPrimeField O p) (hx : x < p) (h0 : x ≠ 0) :
    ∃ r, O.check_primitive_root x = .ok r ∧ (r = true ↔ orderOf (x : ZMod p) = p - 1) := by
  refine ⟨_, by unfold Obj.check_primitive_root; rw [H.get_order_spec hx h0]; rfl, ?_⟩
  simp [cardM1, H.card]

/-- C11 (`is_primitive_root`, part that holds): for `p ≠ 3` and nonzero `x` it
is true exactly for generators.  Missing: `x = 0` and, for `p = 3`, `x = 1`;
both are wrongly accepted (`C11_zero_accepted`, `C11_one_accepted_mod_three`). -/
theorem C11_is_primitive_root_partial {O : Obj} {p x : Nat} (H : IsPrimeField O p) (h3 : p ≠ 3)
    (hx : x < p) (h0 : x ≠ 0) : O.is_primitive_root x = true ↔ orderOf (x : ZMod p) = p - 1 := by
  obtain ⟨h1, _, h4, _⟩ := H.spec
  have hc := H.card
  subst hc
  unfold Obj.is_primitive_root
  rw [h4]
  exact noDivisor_iff H.fits H.prime h1 h3 hx h0

/-- `is_primitive_root(0)` answers true in every prime field. -/
theorem C11_zero_accepted {O : Obj} {p : Nat} (H : IsPrimeField O p) : O.is_primitive_root 0 = true := by
  obtain ⟨h1, _, h4, _⟩ := H.spec
  have hp2 := H.prime.two_le
  unfold Obj.is_primitive_root noDivisorGivesOne
  rw [h4]
  simp only [List.all_eq_true, Arith.get_proper_divisors_from, List.mem_map, List.mem_filter,
    decide_eq_true_eq, bne_iff_ne]
  rintro d ⟨q, ⟨⟨pe, hm, rfl⟩, hlt⟩, rfl⟩
  have hq := (h1.1 pe hm).1
  have hpos : 0 < (p - 1) / pe.1 := Nat.div_pos (by omega) hq.pos
  have hc := H.card
  rw [exp_eq H.fits (by omega), zero_pow hpos.ne', Nat.zero_mod]
  omega

/-- `is_primitive_root(1)` answers true in GF(3), where 1 is not a generator. -/
theorem C11_one_accepted_mod_three :
    ∃ O, IsPrimeField O 3 ∧ O.is_primitive_root 1 = true ∧ orderOf ((1 : Nat) : ZMod 3) ≠ 3 - 1 := by
  refine ⟨⟨⟨32, 64, true, 3⟩, [(2, 1)], [2], [], 2⟩, ⟨by norm_num, rfl, ⟨by decide, by decide, by decide⟩,
    rfl, rfl, by decide +kernel⟩, by decide +kernel, by simp⟩

/-- C11 (`check_order_naive`, part that holds): for every order other than 2 it
decides "the multiplicative order of x is `order`".  Missing: `order = 2`, where
`x = 1` is accepted (`C11_check_order_two`). -/
theorem C11_check_order_naive_partial {O : Obj} {p x order : Nat} (H : IsPrimeField O p) (hx : x < p)
    (ho : 0 < order) (ho2 : order ≠ 2) :
    O.check_order_naive x order = true ↔ orderOf (x : ZMod p) = order := by
  have := Fact.mk H.prime
  have hc := H.card
  have hF := H.fits
  have hp2 := H.prime.two_le
  -- the loop
  have loop : ∀ k tmp j, tmp < p → (tmp : ZMod p) = (x : ZMod p) ^ j →
      (Obj.orderNaiveLoop O.ring.mul x k tmp = true ↔ ∀ i, j ≤ i → i < j + k → (x : ZMod p) ^ i ≠ 1) := by
    intro k
    induction k with
    | zero => intro tmp j _ _; simp [Obj.orderNaiveLoop]; intro i h1 h2; omega
    | succ k ih =>
      intro tmp j h1 h2
      unfold Obj.orderNaiveLoop
      have hone : tmp = 1 ↔ (x : ZMod p) ^ j = 1 := by
        rw [← h2]
        constructor
        · rintro rfl; simp
        · intro h; exact cast_inj h1 (by omega) (by simpa using h)
      split
      · rename_i h
        simp only [Bool.false_eq_true, false_iff, not_forall]
        exact ⟨j, le_refl _, by omega, fun hn => hn (hone.1 h)⟩
      · rename_i h
        have hm : O.ring.mul tmp x = tmp * x % p := by rw [mul_eq hF (by omega) (by omega), hc]
        rw [ih (O.ring.mul tmp x) (j + 1) (by rw [hm]; exact Nat.mod_lt _ (by omega))
          (by rw [hm, ZMod.natCast_mod, Nat.cast_mul, h2, pow_succ])]
        constructor
        · intro hh i a b
          rcases Nat.eq_or_lt_of_le a with rfl | hlt
          · intro hc; exact h (hone.2 hc)
          · exact hh i hlt (by omega)
        · intro hh i a b; exact hh i (by omega) (by omega)
  unfold Obj.check_order_naive
  have hexp := exp_eq_one_iff hF (x := x) (by omega) order
  rw [hc] at hexp
  by_cases h1 : (x : ZMod p) ^ order = 1
  · rw [if_neg (by rw [not_not]; exact hexp.2 h1), loop _ x 1 hx (by simp)]
    constructor
    · intro hall
      apply le_antisymm (orderOf_le_of_pow_eq_one ho h1)
      by_contra hlt
      have hd := orderOf_dvd_of_pow_eq_one h1
      have hpos : 0 < orderOf (x : ZMod p) := Nat.pos_of_dvd_of_pos hd ho
      have hle : orderOf (x : ZMod p) ≤ order / 2 := by
        obtain ⟨c, hcc⟩ := hd
        have : 2 ≤ c := by
          rcases Nat.lt_or_ge c 2 with h | h
          · interval_cases c
            · omega
            · omega
          · exact h
        rw [Nat.le_div_iff_mul_le (by norm_num)]
        calc orderOf (x : ZMod p) * 2 ≤ orderOf (x : ZMod p) * c := Nat.mul_le_mul_left _ this
          _ = order := hcc.symm
      exact hall (orderOf (x : ZMod p)) hpos (by omega) (pow_orderOf_eq_one _)
    · intro hord i a b hi
      have := Nat.le_of_dvd (by omega) (orderOf_dvd_of_pow_eq_one hi)
      omega
  · rw [if_pos (by intro h; exact h1 (hexp.1 h))]
    simp only [Bool.false_eq_true, false_iff]
    intro h
    exact h1 (by rw [← h]; exact pow_orderOf_eq_one _)

/-- `check_order_naive(1, 2)` answers true in every prime field. -/
theorem C11_check_order_two {O : Obj} {p : Nat} (H : IsPrimeField O p) :
    O.check_order_naive 1 2 = true ∧ orderOf ((1 : Nat) : ZMod p) = 1 := by
  have hp2 := H.prime.two_le
  have hc := H.card
  constructor
  · unfold Obj.check_order_naive
    rw [exp_eq H.fits (by omega), one_pow, Nat.mod_eq_of_lt (by omega)]
    simp [Obj.orderNaiveLoop]
  · simp

example : O65537.get_nth_root 16 = .ok 64 := by decide +kernel
example : (16 : Nat) ∣ 65537 - 1 := by norm_num
example : IsPrimeField O65537 65537 := isPrimeField65537

/-! ## C45 -/

/-- C45: `compute_omegas` stores `w^i mod p` in entry `i` for all `i < n` and
leaves the rest of the vector unchanged. -/
theorem C45_compute_omegas {O : Obj} {p w n : Nat} (H : IsPrimeField O p) (hw : w < p) {W : Array Nat}
    (hn : n ≤ W.size) :
    ∃ W', O.compute_omegas W n w = .ok W' ∧ W'.size = W.size ∧
      ∀ i, gt W' i = if i < n then w ^ i % p else gt W i := by
  obtain ⟨W', e, h1, h2⟩ := forN_fill (a := W) (fun i => O.ring.exp w i) hn
  refine ⟨W', e, h1, fun i => ?_⟩
  have hc := H.card
  rw [h2, exp_eq H.fits (by omega), hc]

theorem readCache_spec (n : Nat) : ∀ (vs : List Nat) (i : Nat) (W : Array Nat), i + vs.length = n → n ≤ W.size →
    ∃ W', Obj.readCache n vs i W = .ok W' ∧ W'.size = W.size ∧
      ∀ j, gt W' j = if i ≤ j ∧ j < n then vs.getD (j - i) 0 else gt W j := by
  intro vs
  induction vs with
  | nil =>
    intro i W h hn
    refine ⟨W, by simp at h; simp [Obj.readCache, cassert, h], rfl, fun j => ?_⟩
    simp at h
    rw [if_neg (by omega)]
  | cons v vs ih =>
    intro i W h hn
    simp only [List.length_cons] at h
    obtain ⟨W', e, h1, h2⟩ := ih (i + 1) (W.setIfInBounds i v) (by omega) (by simpa using hn)
    refine ⟨W', by simp only [Obj.readCache, cassert, decide_eq_true (show i < W.size by omega), if_true, wr_ok (show i < W.size by omega), ok_bind, e], by simpa using h1, ?_⟩
    intro j
    rw [h2, gt_set (by omega)]
    by_cases hj : j = i
    · subst hj
      rw [if_neg (by omega), if_pos rfl, if_pos (by omega)]; simp
    · rw [if_neg hj]
      by_cases hlt : i + 1 ≤ j ∧ j < n
      · rw [if_pos hlt, if_pos (by omega), show j - i = (j - (i + 1)) + 1 by omega, List.getD_cons_succ]
      · rw [if_neg hlt, if_neg (by omega)]

/-- C45 (cached variant, part that holds): the first call creates the file; a
later call for the same root and the same length reads it back and produces the
same table.  Missing: a file written for a greater length, or by another field
with an equal root, see `C45_cache_longer` and `C45_cache_other_field`. -/
theorem C45_cached_partial {O : Obj} {p w n : Nat} (H : IsPrimeField O p) (hw : w < p) {W W2 : Array Nat}
    (hn : n ≤ W.size) (hn2 : n ≤ W2.size) :
    ∃ W' file, O.compute_omegas_cached none W n w = .ok (W', file) ∧
      (∀ i, i < n → gt W' i = w ^ i % p) ∧
      ∃ W2', O.compute_omegas_cached (some file) W2 n w = .ok (W2', file) ∧
        ∀ i, i < n → gt W2' i = w ^ i % p := by
  obtain ⟨W', e, h1, h2⟩ := C45_compute_omegas H hw hn
  refine ⟨W', _, by simp only [Obj.compute_omegas_cached, e, ok_bind]; rfl, fun i hi => by rw [h2, if_pos hi], ?_⟩
  obtain ⟨W2', e2, _, h4⟩ := readCache_spec n ((List.range n).map (fun i => O.ring.exp w i)) 0 W2 (by simp) hn2
  refine ⟨W2', by simp only [Obj.compute_omegas_cached, e2, ok_bind]; rfl, fun i hi => ?_⟩
  have hc := H.card
  rw [h4, if_pos ⟨by omega, hi⟩, ← hc, ← exp_eq H.fits (by omega)]
  simp [hi]

/-- C45 is violated when the file was written for a greater length: the read
goes past the end of a table of the requested length, which only the assertion in `set` stops. -/
theorem C45_cache_longer {O : Obj} {n w : Nat} {vs : List Nat} (hlen : n < vs.length) {W : Array Nat}
    (hW : W.size = n) : O.compute_omegas_cached (some vs) W n w = .error .assertFail := by
  have key : ∀ (vs : List Nat) (i : Nat) (W : Array Nat), i ≤ W.size → W.size < i + vs.length →
      Obj.readCache W.size vs i W = .error .assertFail := by
    intro vs
    induction vs with
    | nil => intro i W h1 h2; simp at h2; omega
    | cons v vs ih =>
      intro i W h1 h2
      simp only [List.length_cons] at h2
      unfold Obj.readCache
      rcases Nat.lt_or_ge i W.size with h | h
      · rw [wr_ok h, decide_eq_true h]
        have := ih (i + 1) (W.setIfInBounds i v) (by simpa using h) (by simp; omega)
        simpa [cassert] using this
      · rw [decide_eq_false (by omega)]; rfl
  have := key vs 0 W (by omega) (by omega)
  rw [hW] at this
  simp [Obj.compute_omegas_cached, this]

/-- C45 is violated across fields: the file is keyed by the root only, so GF(257)
reading the file GF(65537) wrote for `w = 4`, `n = 16` gets values that are not
powers of 4 modulo 257. -/
theorem C45_cache_other_field :
    ∃ W f W', O65537.compute_omegas_cached none (Array.replicate 16 0) 16 4 = .ok (W, f) ∧
      O257.compute_omegas_cached (some f) (Array.replicate 16 0) 16 4 = .ok (W', f) ∧
      gt W' 5 ≠ 4 ^ 5 % 257 := by
  refine ⟨_, _, _, rfl, rfl, by decide +kernel⟩

example : ∃ W', O257.compute_omegas (Array.replicate 4 0) 4 16 = .ok W' ∧ W' = #[1, 16, 256, 241] :=
  ⟨_, by decide +kernel, rfl⟩

end Quad.Props
