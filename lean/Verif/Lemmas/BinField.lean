import Verif.Lemmas.BinIrr
import Verif.Model.BinExt
import Verif.Lemmas.RingRoot

/-!
The field `GF(2)[x] / (x^n + low)` with its elements written as words, and the
members of `BinExtension<T>` as its operations.
-/

namespace Quad
open Polynomial

/-- words below `2^n` are the elements of `K`, the bits being the coefficients on the
powers of `r`, a root of `x^n + low` -/
structure BinField (n low : Nat) (K : Type) [Field K] (r : K) : Prop where
  pos : 0 < n
  low_lt : low < 2 ^ n
  irr : Irreducible (binPoly n low)
  char : CharP K 2
  red : r ^ n = bev r low
  inj : ∀ {a c : Nat}, a < 2 ^ n → c < 2 ^ n → bev r a = bev r c → a = c
  surj : ∀ z : K, ∃ a, a < 2 ^ n ∧ bev r a = z

theorem exists_bev {k : Nat} : ∀ {p : (ZMod 2)[X]}, p.degree < k → ∃ a, a < 2 ^ k ∧ bev X a = p := by
  induction k with
  | zero =>
    intro p h
    refine ⟨0, by simp, ?_⟩
    rw [bev_zero]
    exact (degree_eq_bot.mp (Nat.WithBot.lt_zero_iff.mp (by exact_mod_cast h))).symm
  | succ k ih =>
    intro p h
    have hd : p.divX.degree < k := by
      by_cases h0 : p.divX = 0
      · rw [h0, degree_zero]; exact WithBot.bot_lt_coe _
      · have hp0 : p ≠ 0 := by rintro rfl; exact h0 divX_zero
        rw [degree_eq_natDegree hp0] at h
        have h1 : p.natDegree < k + 1 := by exact_mod_cast h
        rw [degree_eq_natDegree h0, natDegree_divX_eq_natDegree_tsub_one]
        have h2 : p.natDegree ≠ 0 := by
          intro hz
          apply h0
          rw [eq_C_of_natDegree_eq_zero hz, divX_C]
        exact_mod_cast (show p.natDegree - 1 < k by omega)
    obtain ⟨a, ha, e⟩ := ih hd
    have hc : ∀ c : ZMod 2, c = 0 ∨ c = 1 := by decide
    have hp := divX_mul_X_add p
    rcases hc (p.coeff 0) with h0 | h0
    · refine ⟨2 * a, by rw [pow_succ]; omega, ?_⟩
      rw [bev_two_mul, e]
      conv_rhs => rw [← hp, h0, C_0]
      ring
    · refine ⟨2 * a + 1, by rw [pow_succ]; omega, ?_⟩
      rw [bev_step, if_pos (by omega), show (2 * a + 1) / 2 = a by omega, e]
      conv_rhs => rw [← hp, h0, C_1]
      ring

theorem binField_of_irr {n low : Nat} (hn : 0 < n) (hl : low < 2 ^ n) (hi : Irreducible (binPoly n low)) :
    haveI := Fact.mk hi
    BinField n low (AdjoinRoot (binPoly n low)) (AdjoinRoot.root (binPoly n low)) := by
  haveI := Fact.mk hi
  have hmon := binPoly_monic hl
  have hdeg : (binPoly n low).degree = n := by
    rw [degree_eq_natDegree hmon.ne_zero, binPoly_natDegree hl]
  have hch : CharP (AdjoinRoot (binPoly n low)) 2 := charTwo_of_alg
  have hmk : ∀ a, bev (AdjoinRoot.root (binPoly n low)) a = AdjoinRoot.mk (binPoly n low) (bev X a) := by
    intro a
    rw [map_bev X (AdjoinRoot.mk (binPoly n low)), AdjoinRoot.mk_X]
  refine ⟨hn, hl, hi, hch, red_of_root (by rw [AdjoinRoot.aeval_eq, AdjoinRoot.mk_self]), ?_, ?_⟩
  · intro a c ha hc h
    have h1 : bev (AdjoinRoot.root (binPoly n low)) (a ^^^ c) = 0 := by
      rw [bev_xor, h, CharTwo.add_self_eq_zero]
    rw [hmk, AdjoinRoot.mk_eq_zero] at h1
    have h2 := eq_zero_of_dvd_of_degree_lt h1 (by rw [hdeg]; exact bev_degree (Nat.xor_lt_two_pow ha hc))
    have h3 := bev_X_inj h2
    exact Nat.xor_eq_zero_iff.mp h3
  · intro z
    obtain ⟨p, rfl⟩ := AdjoinRoot.mk_surjective z
    obtain ⟨a, ha, e⟩ := exists_bev (k := n) (p := p %ₘ binPoly n low) (by rw [← hdeg]; exact degree_modByMonic_lt _ hmon)
    refine ⟨a, ha, ?_⟩
    rw [hmk, e]
    have := modByMonic_add_div p (binPoly n low)
    conv_rhs => rw [← this]
    rw [map_add, map_mul, AdjoinRoot.mk_self, zero_mul, add_zero]

namespace BinField
variable {n low : Nat} {K : Type} [Field K] {r : K}

theorem card (H : BinField n low K r) : Nat.card K = 2 ^ n := by
  have : Function.Bijective (fun a : Fin (2 ^ n) => bev r a.1) := by
    constructor
    · intro a c h
      exact Fin.ext (H.inj a.2 c.2 h)
    · intro z
      obtain ⟨a, ha, e⟩ := H.surj z
      exact ⟨⟨a, ha⟩, e⟩
  rw [← Nat.card_eq_of_bijective _ this, Nat.card_fin]

theorem two_pow_pos (H : BinField n low K r) : 1 < 2 ^ n := Nat.one_lt_two_pow H.pos.ne'

theorem ne_zero (H : BinField n low K r) {a : Nat} (h0 : a ≠ 0) (ha : a < 2 ^ n) : bev r a ≠ 0 := by
  intro h
  exact h0 (H.inj ha (by positivity) (by rw [h, bev_zero]))

theorem orderOf_dvd (H : BinField n low K r) {z : K} (hz : z ≠ 0) : z ^ (2 ^ n - 1) = 1 := by
  haveI : Finite K := Nat.finite_of_card_ne_zero (by rw [H.card]; positivity)
  haveI := Fintype.ofFinite K
  have := FiniteField.pow_card_sub_one_eq_one z hz
  rwa [← Nat.card_eq_fintype_card, H.card] at this

theorem exists_primitive (H : BinField n low K r) :
    ∃ m : Nat, 0 < m ∧ m < 2 ^ n ∧ orderOf (bev r m) = 2 ^ n - 1 := by
  haveI : Finite K := Nat.finite_of_card_ne_zero (by rw [H.card]; positivity)
  obtain ⟨g, hg⟩ := IsCyclic.exists_generator (α := Kˣ)
  obtain ⟨m, hm, e⟩ := H.surj (g : K)
  refine ⟨m, ?_, hm, ?_⟩
  · rw [Nat.pos_iff_ne_zero]
    rintro rfl
    rw [bev_zero] at e
    exact g.ne_zero e.symm
  · rw [e, orderOf_units, orderOf_eq_card_of_forall_mem_zpowers hg, Nat.card_units, H.card]

end BinField

namespace BinExt
variable {n low b : Nat} {K : Type} [Field K] {r : K}

theorem and_pow_ne {n x : Nat} (hx : x < 2 ^ (n + 1)) : x &&& 2 ^ n ≠ 0 ↔ 2 ^ n ≤ x := by
  rw [Nat.and_two_pow]
  have h2 : (2 : Nat) ^ n > 0 := by positivity
  constructor
  · intro h
    by_contra hlt
    rw [Nat.testBit_lt_two_pow (by omega)] at h
    simp at h
  · intro h
    have : x.testBit n = true := by
      have hx' : x = 2 ^ n + (x - 2 ^ n) := by omega
      rw [hx', Nat.testBit_two_pow_add_eq, Nat.testBit_lt_two_pow (by rw [pow_succ] at hx; omega)]
      rfl
    rw [this]
    simp

theorem mul2_eq (hn : 0 < n) (hb : n ≤ b) {x : Nat} (hx : x < 2 ^ n) : mul2 b (2 ^ (n - 1)) low x = dbl n low x := by
  obtain ⟨m, rfl⟩ : ∃ m, n = m + 1 := ⟨n - 1, by omega⟩
  rw [Nat.add_sub_cancel]
  have hpb : 2 ^ (m + 1) ≤ 2 ^ b := Nat.pow_le_pow_right (by norm_num) hb
  have h2 : (2 : Nat) ^ (m + 1) = 2 * 2 ^ m := by ring
  have hiff := and_pow_ne (n := m) hx
  unfold mul2 dbl
  rw [Nat.add_sub_cancel]
  by_cases h : 2 ^ m ≤ x
  · rw [if_pos (Nat.pos_of_ne_zero (hiff.mpr h)), if_pos h, ← sub_pow_eq_xor h hx]
    unfold wrap
    rw [Nat.mod_eq_of_lt (by omega)]
    congr 1
    omega
  · rw [if_neg (by have := mt hiff.mp h; omega), if_neg h]
    unfold wrap
    rw [Nat.mod_eq_of_lt (by omega), Nat.mul_comm]

theorem mul2_spec (H : BinField n low K r) (hb : n ≤ b) {x : Nat} (hx : x < 2 ^ n) :
    mul2 b (2 ^ (n - 1)) low x < 2 ^ n ∧ bev r (mul2 b (2 ^ (n - 1)) low x) = r * bev r x := by
  haveI := H.char
  rw [mul2_eq H.pos hb hx]
  exact dbl_spec H.pos H.low_lt H.red hx

theorem shift_left_spec (H : BinField n low K r) (hb : n ≤ b) : ∀ k x, x < 2 ^ n →
    shift_left b (2 ^ (n - 1)) low x k < 2 ^ n ∧ bev r (shift_left b (2 ^ (n - 1)) low x k) = r ^ k * bev r x := by
  intro k
  induction k with
  | zero => intro x hx; exact ⟨hx, by simp [shift_left]⟩
  | succ k ih =>
    intro x hx
    obtain ⟨h1, h2⟩ := mul2_spec H hb hx
    obtain ⟨h3, h4⟩ := ih _ h1
    exact ⟨h3, by rw [shift_left, h4, h2]; ring⟩

/-- no reduction while the degree stays below `n` -/
theorem shift_left_small (hn : 0 < n) (hb : n ≤ b) : ∀ k x, x * 2 ^ k < 2 ^ n →
    shift_left b (2 ^ (n - 1)) low x k = x * 2 ^ k := by
  intro k
  induction k with
  | zero => intro x hx; simp [shift_left]
  | succ k ih =>
    intro x hx
    have h1 : x * 2 ^ (k + 1) = 2 * x * 2 ^ k := by ring
    have h2 : 2 * x ≤ 2 * x * 2 ^ k := Nat.le_mul_of_pos_right _ (by positivity)
    have h3 : (2 : Nat) ^ n = 2 * 2 ^ (n - 1) := by
      obtain ⟨m, rfl⟩ : ∃ m, n = m + 1 := ⟨n - 1, by omega⟩
      rw [Nat.add_sub_cancel]; ring
    rw [shift_left, mul2_eq hn hb (by omega)]
    have : dbl n low x = 2 * x := by
      unfold dbl
      rw [if_neg (by omega)]
    rw [this, ih _ (by omega), h1]

/-- one reduction when the degree reaches `n` -/
theorem shift_left_top (hn : 0 < n) (hb : n ≤ b) {k x : Nat} (h1 : 2 ^ n ≤ x * 2 ^ (k + 1)) (h2 : x * 2 ^ k < 2 ^ n) :
    shift_left b (2 ^ (n - 1)) low x (k + 1) = (x * 2 ^ (k + 1) ^^^ 2 ^ n) ^^^ low := by
  have key : ∀ k x, shift_left b (2 ^ (n - 1)) low x (k + 1) = mul2 b (2 ^ (n - 1)) low (shift_left b (2 ^ (n - 1)) low x k) := by
    intro k
    induction k with
    | zero => intro x; rfl
    | succ k ih => intro x; rw [shift_left, ih]; rfl
  have h3 : (2 : Nat) ^ n = 2 * 2 ^ (n - 1) := by
    obtain ⟨m, rfl⟩ : ∃ m, n = m + 1 := ⟨n - 1, by omega⟩
    rw [Nat.add_sub_cancel]; ring
  have h4 : x * 2 ^ (k + 1) = 2 * (x * 2 ^ k) := by ring
  rw [key, shift_left_small hn hb k x h2, mul2_eq hn hb h2, dbl, if_pos (by omega), h4,
    sub_pow_eq_xor (by omega) (by rw [pow_succ]; omega)]

/-! ### logarithm tables -/

theorem setup_tables_spec (H : BinField n low K r) (hb : n < b) (hn : 1 < n) (hord : orderOf r = 2 ^ n - 1) (junk : Nat → Nat → Nat) :
    ∃ t : Array Nat × Array Nat, setup_tables b (2 ^ n) (2 ^ n + low) junk = .ok t ∧ t.1.size = 2 ^ n ∧ t.2.size = 2 ^ n ∧
      (∀ i, i < 2 ^ n - 1 → gt t.2 i < 2 ^ n ∧ bev r (gt t.2 i) = r ^ i ∧ gt t.1 (gt t.2 i) = i) := by
  haveI := H.char
  have hpb : 2 ^ (n + 1) ≤ 2 ^ b := Nat.pow_le_pow_right (by norm_num) hb
  have hpos : 0 < (2 : Nat) ^ n := by positivity
  have hrinj : ∀ i j, i < 2 ^ n - 1 → j < 2 ^ n - 1 → r ^ i = r ^ j → i = j := by
    intro i j hi hj h
    exact pow_injOn_Iio_orderOf (by rw [hord]; exact hi) (by rw [hord]; exact hj) h
  have key := forN_inv (n := 2 ^ n - 1)
    (s := (Array.ofFn (fun i : Fin (2 ^ n) => junk 0 i.1), Array.ofFn (fun i : Fin (2 ^ n) => junk 1 i.1), 1))
    (f := fun log s => do
      let gflog ← wr s.1 s.2.2 log
      let gfilog ← wr s.2.1 log s.2.2
      let x := wrap b (s.2.2 * 2)
      pure (gflog, gfilog, if x &&& 2 ^ n ≠ 0 then x ^^^ (2 ^ n + low) else x))
    (I := fun k (s : Array Nat × Array Nat × Nat) => s.1.size = 2 ^ n ∧ s.2.1.size = 2 ^ n ∧ (s.2.2 < 2 ^ n ∧ bev r s.2.2 = r ^ k) ∧
      (∀ i, i < k → gt s.2.1 i < 2 ^ n ∧ bev r (gt s.2.1 i) = r ^ i ∧ gt s.1 (gt s.2.1 i) = i))
    ⟨by simp, by simp, ⟨Nat.one_lt_two_pow (by omega), by simp⟩, by intro i hi; omega⟩ ?_
  · obtain ⟨s, e, h1, h2, h3, h4⟩ := key
    exact ⟨(s.1, s.2.1), by unfold setup_tables; rw [e]; rfl, h1, h2, h4⟩
  · rintro k ⟨g, gi, x⟩ hk ⟨h1, h2, ⟨h3, h3'⟩, h4⟩
    simp only at h1 h2 h3 h3' h4 ⊢
    rw [wr_ok (by omega), ok_bind, wr_ok (by omega), ok_bind]
    refine ⟨_, rfl, by simp [h1], by simp [h2], ?_, ?_⟩
    · simp only
      have hw : wrap b (x * 2) = 2 * x := by
        unfold wrap
        rw [Nat.mod_eq_of_lt (by rw [pow_succ] at hpb; omega), Nat.mul_comm]
      have hd : (if wrap b (x * 2) &&& 2 ^ n ≠ 0 then wrap b (x * 2) ^^^ (2 ^ n + low) else wrap b (x * 2)) = dbl n low x := by
        rw [hw]
        have hiff := and_pow_ne (n := n) (x := 2 * x) (by rw [pow_succ]; omega)
        have h3 : (2 : Nat) ^ n = 2 * 2 ^ (n - 1) := by
          obtain ⟨m, rfl⟩ : ∃ m, n = m + 1 := ⟨n - 1, by omega⟩
          rw [Nat.add_sub_cancel]; ring
        unfold dbl
        by_cases h : 2 ^ n ≤ 2 * x
        · rw [if_pos (hiff.mpr h), if_pos (by omega), sub_pow_eq_xor h (by rw [pow_succ]; omega), Nat.xor_assoc]
          congr 1
          have := sub_pow_eq_xor (n := n) (x := 2 ^ n + low) (by omega) (by have := H.low_lt; rw [pow_succ]; omega)
          rw [Nat.add_sub_cancel_left] at this
          conv_rhs => rw [this]
          rw [Nat.xor_comm (2 ^ n + low), ← Nat.xor_assoc, Nat.xor_self, Nat.zero_xor]
        · rw [if_neg (mt hiff.mp h), if_neg (by omega)]
      rw [hd]
      obtain ⟨d1, d2⟩ := dbl_spec H.pos H.low_lt H.red h3
      exact ⟨d1, by rw [d2, h3']; ring⟩
    · intro i hi
      simp only
      rw [gt_set (by omega)]
      by_cases hik : i = k
      · subst hik
        rw [if_pos rfl, gt_set (by omega), if_pos rfl]
        exact ⟨h3, h3', rfl⟩
      · rw [if_neg hik]
        obtain ⟨q1, q2, q3⟩ := h4 i (by omega)
        refine ⟨q1, q2, ?_⟩
        rw [gt_set (by omega), if_neg, q3]
        intro hx
        rw [hx, h3'] at q2
        exact hik (hrinj i k (by omega) hk q2.symm)

end BinExt
end Quad
