import Verif.Lemmas.BitRev
import Mathlib.Algebra.BigOperators.Ring.Finset
import Mathlib.Algebra.BigOperators.GroupWithZero.Action
import Mathlib.Algebra.Field.GeomSum
import Mathlib.RingTheory.RootsOfUnity.PrimitiveRoots
import Mathlib.Tactic.LinearCombination
import Mathlib.Tactic.Module

/-!
Decimation in time and in frequency over a vector space: the mathematics of
the stages of the radix-2 transform.
-/

namespace Quad
open Finset

variable {K : Type*} [Field K] {M : Type*} [AddCommGroup M] [Module K M]

/-- discrete Fourier transform of `x 0 .. x (N-1)` at the powers of `w` -/
def dft (w : K) (N : Nat) (x : Nat → M) (k : Nat) : M := ∑ j ∈ range N, w ^ (k * j) • x j

theorem sum_range_two_mul (m : Nat) (f : Nat → M) :
    ∑ u ∈ range (2 * m), f u = ∑ u ∈ range m, (f (2 * u) + f (2 * u + 1)) := by
  induction m with
  | zero => simp
  | succ m ih => rw [show 2 * (m + 1) = 2 * m + 1 + 1 by ring, sum_range_succ, sum_range_succ, ih,
      sum_range_succ]; abel

/-! ### decimation in time -/

/-- contents after the stages below `2^s` -/
def ditState (w : K) (L s : Nat) (x : Nat → M) (i : Nat) : M :=
  ∑ u ∈ range (2 ^ s),
    w ^ (2 ^ (L - s) * (i % 2 ^ s) * u) • x (bitrev (L - s) (i / 2 ^ s) + u * 2 ^ (L - s))

/-- one Cooley-Tukey stage -/
def ctLayer (w : K) (L s : Nat) (y : Nat → M) (i : Nat) : M :=
  if i % 2 ^ (s + 1) < 2 ^ s then y i + w ^ (i % 2 ^ (s + 1) * 2 ^ (L - s - 1)) • y (i + 2 ^ s)
  else y (i - 2 ^ s) - w ^ ((i % 2 ^ (s + 1) - 2 ^ s) * 2 ^ (L - s - 1)) • y i

theorem split_block (b q m : Nat) (hq : q < m) :
    (b * (2 * m) + q) % m = q ∧ (b * (2 * m) + q) / m = 2 * b ∧
    (b * (2 * m) + q + m) % m = q ∧ (b * (2 * m) + q + m) / m = 2 * b + 1 := by
  have hm : 0 < m := by omega
  have e1 : b * (2 * m) + q = q + m * (2 * b) := by ring
  have e2 : b * (2 * m) + q + m = q + m * (2 * b + 1) := by ring
  rw [e2, e1]
  refine ⟨?_, ?_, ?_, ?_⟩
  · rw [Nat.add_mul_mod_self_left, Nat.mod_eq_of_lt hq]
  · rw [Nat.add_mul_div_left _ _ hm, Nat.div_eq_of_lt hq, Nat.zero_add]
  · rw [Nat.add_mul_mod_self_left, Nat.mod_eq_of_lt hq]
  · rw [Nat.add_mul_div_left _ _ hm, Nat.div_eq_of_lt hq, Nat.zero_add]

theorem dit_step {w : K} {L s : Nat} (hs : s < L) (hw : w ^ 2 ^ (L - 1) = -1) (x : Nat → M) (i : Nat) :
    ctLayer w L s (ditState w L s x) i = ditState w L (s + 1) x i := by
  obtain ⟨d, rfl⟩ : ∃ d, L = s + d + 1 := ⟨L - s - 1, by omega⟩
  set m := 2 ^ s with hm
  have hmpos : 0 < m := by positivity
  have h2m : 2 ^ (s + 1) = 2 * m := by rw [pow_succ]; ring
  have e1 : s + d + 1 - s = d + 1 := by omega
  have e2 : s + d + 1 - (s + 1) = d := by omega
  have e3 : s + d + 1 - s - 1 = d := by omega
  set D := 2 ^ d with hD
  have h2D : 2 ^ (d + 1) = 2 * D := by rw [pow_succ]; ring
  have hwm : w ^ (D * m) = -1 := by
    rw [← hw, hD, hm, ← pow_add]; congr 2; omega
  obtain ⟨b, q, hq, rfl⟩ : ∃ b q, q < 2 * m ∧ i = b * (2 * m) + q :=
    ⟨i / (2 * m), i % (2 * m), Nat.mod_lt _ (by omega), by rw [mul_comm]; exact (Nat.div_add_mod i (2*m)).symm⟩
  have hmod : (b * (2 * m) + q) % (2 * m) = q := by
    rw [Nat.mul_add_mod_self_right, Nat.mod_eq_of_lt hq]
  have hdiv : (b * (2 * m) + q) / (2 * m) = b := by
    rw [mul_comm, Nat.mul_add_div (by omega), Nat.div_eq_of_lt hq, Nat.add_zero]
  unfold ctLayer
  rw [h2m, hmod, e3]
  split
  · rename_i hlt
    obtain ⟨s1, s2, s3, s4⟩ := split_block b q m hlt
    simp only [ditState]
    rw [h2m, hmod, hdiv, e1, e2, ← hm, s1, s2, s3, s4, sum_range_two_mul, h2D, ← hD, smul_sum,
      ← sum_add_distrib]
    rw [bitrev_two_mul, bitrev_two_mul_add_one, ← hD]
    apply sum_congr rfl
    intro u _
    rw [smul_smul, ← pow_add]
    congr 2
    · congr 1; ring
    · congr 1; ring
    · congr 1; ring
    · congr 1; ring
  · rename_i hlt
    obtain ⟨t, rfl⟩ : ∃ t, q = t + m := ⟨q - m, by omega⟩
    have ht : t < m := by omega
    obtain ⟨s1, s2, s3, s4⟩ := split_block b t m ht
    have hsub : b * (2 * m) + (t + m) - m = b * (2 * m) + t := by omega
    simp only [ditState]
    rw [hsub]
    rw [← add_assoc] at hmod hdiv
    rw [h2m, ← add_assoc, hmod, hdiv, e1, e2, ← hm, s1, s2, s3, s4, sum_range_two_mul, h2D, ← hD, smul_sum,
      ← sum_sub_distrib]
    rw [bitrev_two_mul, bitrev_two_mul_add_one, ← hD]
    apply sum_congr rfl
    intro u _
    rw [smul_smul, ← pow_add, sub_eq_add_neg, ← neg_smul]
    have hu : w ^ (D * (t + m) * (2 * u)) = w ^ (2 * D * t * u) := by
      rw [show D * (t + m) * (2 * u) = 2 * D * t * u + D * m * (2 * u) by ring, pow_add,
        pow_mul w (D * m), hwm, pow_mul]; simp
    have hu1 : w ^ (D * (t + m) * (2 * u + 1)) = - w ^ ((t + m - m) * D + 2 * D * t * u) := by
      rw [show D * (t + m) * (2 * u + 1) = (t * D + 2 * D * t * u) + D * m * (2 * u + 1) by ring, pow_add,
        pow_mul w (D * m), hwm, pow_succ, pow_mul (-1 : K)]; simp
    rw [hu, hu1]
    congr 2
    · congr 1; ring
    · congr 1; ring

/-- after the last stage the transform is complete -/
theorem dit_final {w : K} {L : Nat} (x : Nat → M) {i : Nat} (hi : i < 2 ^ L) :
    ditState w L L x i = dft w (2 ^ L) x i := by
  simp [ditState, dft, Nat.mod_eq_of_lt hi, bitrev]

/-- starting stage for an input that is zero from `2^(L-s)` on -/
theorem dit_start {w : K} {L s : Nat} (x : Nat → M)
    (hx : ∀ j, 2 ^ (L - s) ≤ j → x j = 0) (i : Nat) :
    ditState w L s x i = x (bitrev (L - s) (i / 2 ^ s)) := by
  unfold ditState
  rw [sum_eq_single 0]
  · simp
  · intro u _ hu
    rw [hx _, smul_zero]
    have : 1 ≤ u := Nat.one_le_iff_ne_zero.mpr hu
    calc 2 ^ (L - s) = 1 * 2 ^ (L - s) := (one_mul _).symm
      _ ≤ u * 2 ^ (L - s) := Nat.mul_le_mul_right _ this
      _ ≤ _ := Nat.le_add_left _ _
  · intro h; exact absurd (mem_range.mpr (by positivity)) h

/-! ### decimation in frequency -/

/-- contents when the blocks have length `2^(L-s)` -/
def difState (v : K) (L s : Nat) (x : Nat → M) (i : Nat) : M :=
  ∑ u ∈ range (2 ^ s),
    v ^ ((i % 2 ^ (L - s) + u * 2 ^ (L - s)) * bitrev s (i / 2 ^ (L - s)))
      • x (i % 2 ^ (L - s) + u * 2 ^ (L - s))

/-- one Gentleman-Sande stage on blocks of length `2^(s+1)` -/
def gsLayer (v : K) (L s : Nat) (y : Nat → M) (i : Nat) : M :=
  if i % 2 ^ (s + 1) < 2 ^ s then y i + y (i + 2 ^ s)
  else v ^ ((i % 2 ^ (s + 1) - 2 ^ s) * 2 ^ (L - s - 1)) • (y (i - 2 ^ s) - y i)

theorem dif_step {v : K} {L s : Nat} (hs : s < L) (hv : v ^ 2 ^ (L - 1) = -1) (x : Nat → M) (i : Nat) :
    gsLayer v L s (difState v L (L - s - 1) x) i = difState v L (L - s) x i := by
  obtain ⟨d, rfl⟩ : ∃ d, L = s + d + 1 := ⟨L - s - 1, by omega⟩
  set m := 2 ^ s with hm
  have hmpos : 0 < m := by positivity
  have h2m : 2 ^ (s + 1) = 2 * m := by rw [pow_succ]; ring
  have e1 : s + d + 1 - s = d + 1 := by omega
  have e2 : s + d + 1 - d = s + 1 := by omega
  have e3 : s + d + 1 - s - 1 = d := by omega
  have e4 : s + d + 1 - (d + 1) = s := by omega
  set D := 2 ^ d with hD
  have h2D : 2 ^ (d + 1) = 2 * D := by rw [pow_succ]; ring
  have hwm : v ^ (D * m) = -1 := by
    rw [← hv, hD, hm, ← pow_add]; congr 2; omega
  obtain ⟨b, q, hq, rfl⟩ : ∃ b q, q < 2 * m ∧ i = b * (2 * m) + q :=
    ⟨i / (2 * m), i % (2 * m), Nat.mod_lt _ (by omega), by rw [mul_comm]; exact (Nat.div_add_mod i (2*m)).symm⟩
  have key : ∀ q, q < 2 * m → (b * (2 * m) + q) % (2 * m) = q ∧ (b * (2 * m) + q) / (2 * m) = b := by
    intro q hq
    constructor
    · rw [Nat.mul_add_mod_self_right, Nat.mod_eq_of_lt hq]
    · rw [mul_comm, Nat.mul_add_div (by omega), Nat.div_eq_of_lt hq, Nat.add_zero]
  obtain ⟨hmod, hdiv⟩ := key q hq
  unfold gsLayer
  rw [h2m, hmod, e3, e1]
  split
  · rename_i hlt
    obtain ⟨s1, s2, s3, s4⟩ := split_block b q m hlt
    obtain ⟨k1, k2⟩ := key (q + m) (by omega)
    simp only [difState]
    rw [e2, e4, h2m, hmod, hdiv, ← hm, s1, s2, add_assoc (b * (2 * m)), k1, k2, h2D, sum_range_two_mul,
      ← sum_add_distrib]
    rw [bitrev_two_mul]
    apply sum_congr rfl
    intro u _
    have a1 : q + 2 * u * m = q + u * (2 * m) := by ring
    have a2 : q + (2 * u + 1) * m = q + m + u * (2 * m) := by ring
    rw [a1, a2]
  · rename_i hlt
    obtain ⟨t, rfl⟩ : ∃ t, q = t + m := ⟨q - m, by omega⟩
    have ht : t < m := by omega
    obtain ⟨s1, s2, s3, s4⟩ := split_block b t m ht
    obtain ⟨k1, k2⟩ := key t (by omega)
    have hsub : b * (2 * m) + (t + m) - m = b * (2 * m) + t := by omega
    simp only [difState]
    rw [hsub, e2, e4, h2m, hmod, hdiv, ← hm, ← add_assoc, s3, s4, k1, k2, h2D, sum_range_two_mul,
      ← sum_sub_distrib, smul_sum]
    rw [bitrev_two_mul_add_one, ← hD]
    apply sum_congr rfl
    intro u _
    have a1 : t + 2 * u * m = t + u * (2 * m) := by ring
    have a2 : t + (2 * u + 1) * m = t + m + u * (2 * m) := by ring
    rw [a1, a2, smul_sub, smul_smul, smul_smul, ← pow_add, ← pow_add, sub_eq_add_neg, ← neg_smul]
    have p1 : v ^ ((t + u * (2 * m)) * (D + bitrev d b))
        = v ^ ((t + m - m) * D + (t + u * (2 * m)) * bitrev d b) := by
      rw [show (t + u * (2 * m)) * (D + bitrev d b)
        = (t * D + (t + u * (2 * m)) * bitrev d b) + D * m * (2 * u) by ring, pow_add, pow_mul v (D * m),
        hwm, pow_mul]; simp
    have p2 : v ^ ((t + m + u * (2 * m)) * (D + bitrev d b))
        = - v ^ ((t + m - m) * D + (t + m + u * (2 * m)) * bitrev d b) := by
      rw [show (t + m + u * (2 * m)) * (D + bitrev d b)
        = (t * D + (t + m + u * (2 * m)) * bitrev d b) + D * m * (2 * u + 1) by ring, pow_add,
        pow_mul v (D * m), hwm, pow_succ, pow_mul (-1 : K)]; simp
    rw [p1, p2]

theorem dif_start {v : K} {L : Nat} (x : Nat → M) {i : Nat} (hi : i < 2 ^ L) :
    difState v L 0 x i = x i := by
  simp [difState, Nat.mod_eq_of_lt hi, bitrev]

theorem dif_final {v : K} {L : Nat} (x : Nat → M) {i : Nat} :
    difState v L L x i = dft v (2 ^ L) x (bitrev L i) := by
  simp [difState, dft, mul_comm, Nat.mod_one]

/-- a block position below the length of a short input only carries that input -/
theorem dif_short {v : K} {L s : Nat} (x : Nat → M) {P : Nat} (hP : P ≤ 2 ^ (L - s))
    (hx : ∀ j, P ≤ j → x j = 0) (i : Nat) :
    difState v L s x i
      = v ^ ((i % 2 ^ (L - s)) * bitrev s (i / 2 ^ (L - s))) • x (i % 2 ^ (L - s)) := by
  unfold difState
  rw [sum_eq_single 0]
  · simp
  · intro u _ hu
    rw [hx _, smul_zero]
    have : 1 ≤ u := Nat.one_le_iff_ne_zero.mpr hu
    calc P ≤ 1 * 2 ^ (L - s) := by rw [one_mul]; exact hP
      _ ≤ u * 2 ^ (L - s) := Nat.mul_le_mul_right _ this
      _ ≤ _ := Nat.le_add_left _ _
  · intro h; exact absurd (mem_range.mpr (by positivity)) h

/-! ### inversion -/

/-- orthogonality: transforming twice with inverse roots multiplies by `N` -/
theorem dft_dft_inv {w : K} {N : Nat} (hN : 0 < N) (hw : IsPrimitiveRoot w N) (x : Nat → M) {k : Nat} (hk : k < N) :
    dft w⁻¹ N (dft w N x) k = (N : K) • x k := by
  have hw0 : w ≠ 0 := hw.ne_zero (by omega)
  simp only [dft, smul_sum, smul_smul]
  rw [sum_comm]
  have : ∀ j ∈ range N, ∑ i ∈ range N, (w⁻¹ ^ (k * i) * w ^ (i * j)) • x j
      = if j = k then (N : K) • x k else 0 := by
    intro j hj
    rw [← sum_smul]
    have hj' := mem_range.mp hj
    have hterm : ∀ i, w⁻¹ ^ (k * i) * w ^ (i * j) = (w⁻¹ ^ k * w ^ j) ^ i := by
      intro i; rw [mul_pow, ← pow_mul, ← pow_mul, mul_comm j i]
    simp only [hterm]
    split
    · rename_i h; subst h
      rw [← mul_pow, inv_mul_cancel₀ hw0]; simp
    · rename_i hne
      have h1 : w⁻¹ ^ k * w ^ j ≠ 1 := by
        intro h
        have : w ^ j = w ^ k := by
          rw [inv_pow] at h
          field_simp at h
          exact h
        exact hne (hw.pow_inj hj' hk this)
      have hpow : (w⁻¹ ^ k * w ^ j) ^ N = 1 := by
        rw [mul_pow, ← pow_mul, ← pow_mul, mul_comm k, mul_comm j, pow_mul, pow_mul, inv_pow, hw.pow_eq_one]
        simp
      rw [geom_sum_eq h1, hpow, sub_self, zero_div, zero_smul]
  rw [sum_congr rfl this]
  simp [hk]

theorem dft_congr {w : K} {N : Nat} {x y : Nat → M} (h : ∀ j, j < N → x j = y j) (k : Nat) :
    dft w N x k = dft w N y k :=
  sum_congr rfl (fun j hj => by rw [h j (mem_range.mp hj)])

theorem dft_smul {w : K} {N : Nat} {x : Nat → M} (c : K) (k : Nat) :
    dft w N (fun j => c • x j) k = c • dft w N x k := by
  simp only [dft, smul_sum, smul_smul, mul_comm]

theorem pow_half {w : K} {L : Nat} (hL : 0 < L) (hw : IsPrimitiveRoot w (2 ^ L)) : w ^ 2 ^ (L - 1) = -1 := by
  have h1 : (w ^ 2 ^ (L - 1)) ^ 2 = 1 := by
    rw [← pow_mul, ← pow_succ, Nat.sub_add_cancel hL]; exact hw.pow_eq_one
  have h2 : w ^ 2 ^ (L - 1) ≠ 1 := by
    intro h
    have := hw.dvd_of_pow_eq_one _ h
    have h3 := Nat.le_of_dvd (by positivity) this
    have : 2 ^ (L - 1) < 2 ^ L := Nat.pow_lt_pow_right (by omega) (by omega)
    omega
  have h3 : (w ^ 2 ^ (L - 1) - 1) * (w ^ 2 ^ (L - 1) + 1) = 0 := by linear_combination h1
  rcases mul_eq_zero.mp h3 with h | h
  · exact absurd (sub_eq_zero.mp h) h2
  · exact eq_neg_of_add_eq_zero_left h

end Quad
