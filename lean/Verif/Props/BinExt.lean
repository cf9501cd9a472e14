import Verif.Lemmas.BinSpec
import Verif.Lemmas.BinFull

/-!
# Properties of src/gf_bin_ext.h (C14)

`binWord n a` is the polynomial over the field of two elements whose coefficients are
the bits of `a`, `binModulus n` the polynomial of the field, `IsBinExt O b n` says that
`O` is what the constructor and `init` build for a word type of `b` bits.
-/

namespace Quad.Props
open Quad Quad.Spec Quad.BinExt Polynomial

/-- C14: construction succeeds for every supported exponent and word type, whatever the
memory held before; the result does not depend on it through any valid operation below.
Missing: the table-based fields whose elements fill the word type, `BinExtension<uint8_t>(8)` and
`BinExtension<uint16_t>(16)`, for which C14 is false (`C14_full_width_tables_wrong`). -/
theorem C14_create_partial {b n : Nat} (h : BinSupported b n) (junk : Nat → Nat → Nat) (junk3 : Nat → Nat → Nat → Nat) :
    ∃ O, (mk' b n junk junk3 >>= BinExt.init) = .ok O ∧ IsBinExt O b n := by
  obtain ⟨O, e, _, _⟩ := exists_binExt h junk junk3
  exact ⟨O, e, h, _, _, e⟩

/-- C14: the polynomial of each field is irreducible, so the remainders form a field. -/
theorem C14_modulus_irreducible {n : Nat} (h : n ∈ [1, 2, 3, 4, 8, 16, 32, 64, 128]) :
    Irreducible (binModulus n) ∧ (binModulus n).Monic ∧ (binModulus n).natDegree = n := by
  rw [binModulus_eq (size_of h)]
  exact ⟨(lowOf_irr (size_of h)).2, binPoly_monic (lowOf_irr (size_of h)).1, binPoly_natDegree (lowOf_irr (size_of h)).1⟩

/-- C14: `check` accepts exactly the words below `2^n`; addition and subtraction are
addition of polynomials (exclusive or). -/
theorem C14_add {O : Obj} {b n : Nat} (h : IsBinExt O b n) {a c : Nat} (ha : a < 2 ^ n) (hc : c < 2 ^ n) :
    O.F.check a = true ∧ O.F.add a c = a ^^^ c ∧ O.F.sub a c = a ^^^ c ∧ O.F.neg a = a ∧
    O.F.check (O.F.add a c) = true ∧ binWord n (O.F.add a c) = binWord n a + binWord n c := by
  haveI := h.fact
  have B := h.isBinField.2
  have hx := Nat.xor_lt_two_pow ha hc
  refine ⟨(B.good.check_iff a).2 ha, rfl, rfl, Nat.zero_xor a, (B.good.check_iff _).2 hx, ?_⟩
  show binWord n (a ^^^ c) = _
  rw [binWord_eq hx, binWord_eq ha, binWord_eq hc, bev_xor]

/-- C14: multiplication never reads outside a table and is multiplication of polynomials
modulo the polynomial of the field, by logarithm tables and by split tables alike. -/
theorem C14_mul {O : Obj} {b n : Nat} (h : IsBinExt O b n) {a c : Nat} (ha : a < 2 ^ n) (hc : c < 2 ^ n) :
    ∃ m, O.F.mulR a c = .ok m ∧ m < 2 ^ n ∧ binWord n m = (binWord n a * binWord n c) %ₘ binModulus n := by
  haveI := h.fact
  have B := h.isBinField.2
  obtain ⟨m, e, h1, h2⟩ := B.good.mulS ha hc
  refine ⟨m, e, h1, mod_of_root (size_of h.ok.size) h1 ?_⟩
  rw [h2, root_eq_mk ha, root_eq_mk hc, map_mul]

/-- C14: every nonzero element has an inverse, returned by `inv`. -/
theorem C14_inv {O : Obj} {b n : Nat} (h : IsBinExt O b n) {a : Nat} (h0 : a ≠ 0) (ha : a < 2 ^ n) :
    ∃ i, O.F.inv a = .ok i ∧ i < 2 ^ n ∧ O.F.mulR a i = .ok 1 := by
  haveI := h.fact
  have B := h.isBinField.2
  obtain ⟨i, e, h1, h2⟩ := B.good.invS h0 ha
  obtain ⟨m, e', m1, m2⟩ := B.good.mulS ha h1
  refine ⟨i, e, h1, ?_⟩
  rw [e', B.good.H.inj m1 B.good.H.two_pow_pos (by rw [m2, h2, mul_inv_cancel₀ (B.good.H.ne_zero h0 ha), bev_one])]

/-- C14: division is multiplication by the inverse. -/
theorem C14_div {O : Obj} {b n : Nat} (h : IsBinExt O b n) {a c : Nat} (ha : a < 2 ^ n) (h0 : c ≠ 0) (hc : c < 2 ^ n) :
    ∃ i d, O.F.inv c = .ok i ∧ O.F.div a c = .ok d ∧ O.F.mulR a i = .ok d ∧ O.F.mulR d c = .ok a := by
  haveI := h.fact
  have B := h.isBinField.2
  obtain ⟨i, e, h1, h2⟩ := B.good.invS h0 hc
  obtain ⟨d, e1, d1, d2⟩ := B.good.divS h0 ha hc
  obtain ⟨m, e2, m1, m2⟩ := B.good.mulS ha h1
  obtain ⟨q, e3, q1, q2⟩ := B.good.mulS d1 hc
  refine ⟨i, d, e, e1, ?_, ?_⟩
  · rw [e2, B.good.H.inj m1 d1 (by rw [m2, h2, d2, div_eq_mul_inv])]
  · rw [e3, B.good.H.inj q1 ha (by rw [q2, d2, div_mul_cancel₀ _ (B.good.H.ne_zero h0 hc)])]

/-- C14: `exp` is the power modulo the polynomial of the field. -/
theorem C14_exp {O : Obj} {b n : Nat} (h : IsBinExt O b n) {a : Nat} (ha : a < 2 ^ n) (e : Nat) :
    O.F.exp a e < 2 ^ n ∧ binWord n (O.F.exp a e) = (binWord n a ^ e) %ₘ binModulus n := by
  haveI := h.fact
  have B := h.isBinField.2
  obtain ⟨h1, h2⟩ := B.good.exp_spec ha e
  refine ⟨h1, mod_of_root (size_of h.ok.size) h1 ?_⟩
  rw [h2, root_eq_mk ha, map_pow]

/-- C14: `log(a, y)` returns the least exponent `e` with `a^e = y`, and throws `NoSolution`
exactly when `y` is no power of `a`. -/
theorem C14_log {O : Obj} {b n : Nat} (h : IsBinExt O b n) {a y : Nat} (ha : a < 2 ^ n) (hy : y < 2 ^ n) :
    (∃ l, O.F.log a y = .ok l ∧ O.F.exp a l = y ∧ ∀ j, j < l → O.F.exp a j ≠ y) ∨
    (O.F.log a y = .error (.throws .noSolution) ∧ ∀ j, O.F.exp a j ≠ y) := by
  haveI := h.fact
  have B := h.isBinField.2
  have key : ∀ j, O.F.exp a j = y ↔ bev (binR n) a ^ j = bev (binR n) y := by
    intro j
    obtain ⟨h1, h2⟩ := B.good.exp_spec ha j
    rw [← h2]
    exact ⟨fun h => by rw [h], fun h => B.good.H.inj h1 hy h⟩
  rcases B.good.log_spec ha hy with ⟨l, e, _, h2, h3⟩ | ⟨e, h1⟩
  · left
    exact ⟨l, e, (key l).2 h2, fun j hj hh => h3 j hj ((key j).1 hh)⟩
  · right
    exact ⟨e, fun j hh => h1 j ((key j).1 hh)⟩

/-- C14: the root found by `init` generates the multiplicative group: the discrete
logarithm to this base is total on nonzero elements and inverse to `exp`. -/
theorem C14_log_exp_inverse {O : Obj} {b n : Nat} (h : IsBinExt O b n) :
    (∀ y, y ≠ 0 → y < 2 ^ n → ∃ l, O.F.log O.root y = .ok l ∧ l < 2 ^ n - 1 ∧ O.F.exp O.root l = y) ∧
    (∀ e, e < 2 ^ n - 1 → O.F.log O.root (O.F.exp O.root e) = .ok e) := by
  haveI := h.fact
  have B := h.isBinField.2
  have hpos := B.good.H.two_pow_pos
  have hprim : IsPrimitiveRoot (bev (binR n) O.root) (2 ^ n - 1) := by
    rw [← B.root_ord]; exact IsPrimitiveRoot.orderOf _
  have hr0 : O.root ≠ 0 := by
    intro h0
    have := hprim.pow_eq_one
    rw [h0, bev_zero, zero_pow (by omega)] at this
    exact zero_ne_one this
  constructor
  · intro y h0 hy
    haveI : NeZero (2 ^ n - 1) := ⟨by omega⟩
    obtain ⟨i, hi, e⟩ := hprim.eq_pow_of_pow_eq_one (B.good.H.orderOf_dvd (B.good.H.ne_zero h0 hy))
    rcases B.good.log_spec B.root_lt hy with ⟨l, e1, h1, h2, h3⟩ | ⟨_, h1⟩
    · obtain ⟨q1, q2⟩ := B.good.exp_spec B.root_lt l
      exact ⟨l, e1, h1 hr0, B.good.H.inj q1 hy (by rw [q2, h2])⟩
    · exact absurd e (h1 i)
  · intro e he
    obtain ⟨q1, q2⟩ := B.good.exp_spec B.root_lt e
    rcases B.good.log_spec B.root_lt q1 with ⟨l, e1, h1, h2, h3⟩ | ⟨_, h1⟩
    · rw [e1]
      congr 1
      rw [q2] at h2
      exact hprim.pow_inj (h1 hr0) he h2
    · exact absurd q2.symm (h1 e)

/-- C14 and C11: `get_nth_root(m)` has order exactly `gcd(m, 2^n - 1)`. -/
theorem C14_nth_root {O : Obj} {b n : Nat} (h : IsBinExt O b n) (m : Nat) :
    ∃ w, O.get_nth_root m = .ok w ∧ w < 2 ^ n ∧ O.F.exp w (Nat.gcd m (2 ^ n - 1)) = 1 ∧
      ∀ j, 0 < j → j < Nat.gcd m (2 ^ n - 1) → O.F.exp w j ≠ 1 := by
  haveI := h.fact
  have B := h.isBinField.2
  obtain ⟨w, e, h1, h2⟩ := B.get_nth_root_spec m
  refine ⟨w, e, h1, (B.good.exp_eq_one_iff h1 _).2 h2.pow_eq_one, ?_⟩
  intro j h3 h4 h5
  exact h2.pow_ne_one_of_pos_of_lt (by omega) h4 ((B.good.exp_eq_one_iff h1 _).1 h5)

/-- Dividing by zero is not rejected: with split tables the search for the degree of zero runs out of
the table of masks, and with logarithm tables the result is the all-ones word, which is
not an element of the field. -/
theorem C14_division_by_zero {O : Obj} {b n : Nat} (h : IsBinExt O b n) {a : Nat} (h0 : a ≠ 0) :
    (16 < n → O.F.inv 0 = ub ∧ O.F.div a 0 = ub) ∧
    (n ≤ 16 → O.F.div a 0 = .ok (2 ^ b - 1) ∧ ¬ 2 ^ b - 1 < 2 ^ n) := by
  haveI := h.fact
  obtain ⟨hb, B⟩ := h.isBinField
  refine ⟨fun hn => ⟨B.good.inv_zero hn, B.good.div_zero hn a⟩, fun hn => ⟨by rw [B.good.div_zero_log hn h0, hb], ?_⟩⟩
  have h1 : 2 ^ (n + 1) ≤ 2 ^ b := Nat.pow_le_pow_right (by norm_num) (h.ok.spare hn)
  have h2 := B.good.H.two_pow_pos
  rw [pow_succ] at h1
  omega

/-- C14 is false for the fields whose elements fill the word type and that use logarithm
tables, `BinExtension<uint8_t>(8)` and `BinExtension<uint16_t>(16)`: construction succeeds,
most of the tables are never written, and `2 * 1` depends on what memory held before; it is 1
if it held zeros, and something else again if it held a one. -/
theorem C14_full_width_tables_wrong {b : Nat} (hb : b = 8 ∨ b = 16) (junk : Nat → Nat → Nat) (junk3 : Nat → Nat → Nat → Nat) :
    ∃ F g, mk' b b junk junk3 = .ok F ∧ (junk 0 2 = 0 → F.mulR 2 1 = .ok 1) ∧ (junk 0 2 = 1 → F.mulR 2 1 = .ok g) ∧ g ≠ 1 ∧ g ≠ 2 := by
  obtain ⟨F, g, e, h1, h2, h3, h4⟩ := full_width hb junk junk3
  exact ⟨F, g, e, h2, h3, h4, h1⟩

/-- in the field of 16 elements, `(x^3 + 1) (x^2 + x + 1) = x^3 + x` -/
example : (mk' 8 4 (fun _ _ => 77) (fun _ _ _ => 0) >>= fun F => F.mulR 9 7) = .ok 10 := by decide +kernel
example : BinSupported 32 8 := ⟨by decide, by decide, by decide, by decide⟩
example : BinSupported 32 32 := ⟨by decide, by decide, by decide, by decide⟩
example : BinSupported 64 32 := ⟨by decide, by decide, by decide, by decide⟩
example : BinSupported 128 128 := ⟨by decide, by decide, by decide, by decide⟩

end Quad.Props
