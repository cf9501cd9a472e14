import Verif.Lemmas.Dft
import Mathlib.LinearAlgebra.Lagrange
import Mathlib.Algebra.Polynomial.Eval.Degree

/-!
The mathematics of decoding: interpolation through a product with the locator
polynomial truncated at `X^k` (the comment before `FecCode::decode`), and the
cyclic convolution that computes it.
-/

namespace Quad
open Finset Polynomial

variable {K : Type*} [Field K]

/-- locator polynomial `prod (X - x_i)` -/
noncomputable def locator (k : Nat) (x : Nat → K) : K[X] := ∏ i ∈ range k, (X - C (x i))

theorem locator_natDegree (k : Nat) (x : Nat → K) : (locator k x).natDegree = k := by
  unfold locator
  rw [natDegree_prod_of_monic _ _ (fun i _ => monic_X_sub_C _)]
  simp

theorem locator_deriv_ne {k : Nat} {x : Nat → K} (hx : Set.InjOn x (range k)) {i : Nat} (hi : i < k) :
    (derivative (locator k x)).eval (x i) ≠ 0 := by
  have h : locator k x = Lagrange.nodal (range k) x := rfl
  rw [h, Lagrange.eval_nodal_derivative_eval_node_eq (mem_range.mpr hi), Lagrange.nodal, eval_prod]
  rw [Finset.prod_ne_zero_iff]
  intro j hj
  simp only [eval_sub, eval_X, eval_C]
  obtain ⟨h1, h2⟩ := mem_erase.mp hj
  exact sub_ne_zero.mpr (fun he => h1 (hx h2 (by simpa using hi) he.symm))

theorem telescope (a : K) (ha : a ≠ 0) (k : Nat) :
    (X - C a) * ∑ j ∈ range k, C (a⁻¹ ^ j) * X ^ j = C (a * a⁻¹ ^ k) * X ^ k - C a := by
  induction k with
  | zero => simp
  | succ k ih =>
    rw [sum_range_succ, mul_add, ih, pow_succ, pow_succ]
    have : a * (a⁻¹ ^ k * a⁻¹) = a⁻¹ ^ k := by field_simp
    rw [this]
    simp only [map_mul]
    have h2 : C a * C (a⁻¹ ^ k) * X ^ k = C a * (C (a⁻¹ ^ k) * X ^ k) := by ring
    ring

/-- the first `k` coefficients of `sum_i c_i / (1 - X / x_i)` -/
noncomputable def series (k : Nat) (x c : Nat → K) : K[X] :=
  ∑ j ∈ range k, C (∑ i ∈ range k, c i * (x i)⁻¹ ^ j) * X ^ j

theorem series_natDegree_lt {k : Nat} (hk : 0 < k) (x c : Nat → K) : (series k x c).natDegree < k := by
  unfold series
  refine lt_of_le_of_lt (natDegree_sum_le_of_forall_le (n := k - 1) _ _ ?_) (by omega)
  intro i hi
  refine (natDegree_C_mul_X_pow_le _ _).trans ?_
  have := mem_range.mp hi
  omega

theorem interpolate_eq {k : Nat} {x : Nat → K} (hx : Set.InjOn x (range k)) {P : K[X]} (hP : P.degree < k) :
    P = ∑ i ∈ range k, C (P.eval (x i) * ((derivative (locator k x)).eval (x i))⁻¹) *
      ∏ j ∈ (range k).erase i, (X - C (x j)) := by
  have h := Lagrange.eq_interpolate (s := range k) (v := x) (f := P) hx (by simpa using hP)
  conv_lhs => rw [h]
  rw [Lagrange.interpolate_apply]
  apply sum_congr rfl
  intro i hi
  have hb := Lagrange.basis_eq_prod_sub_inv_mul_nodal_div (v := x) hi
  rw [hb, Lagrange.nodalWeight_eq_eval_derivative_nodal hi, ← Lagrange.nodal_erase_eq_nodal_div hi]
  rw [map_mul, mul_assoc]
  rfl

/-- Interpolation modulo `X^k`: the product of the locator with the truncated
series has the coefficients of `-P` below `k`. -/
theorem locator_mul_series_coeff {k : Nat} {x : Nat → K} (hx : Set.InjOn x (range k))
    (hx0 : ∀ i, i < k → x i ≠ 0) {P : K[X]} (hP : P.degree < k) {c : Nat → K}
    (hc : ∀ i, i < k → c i = P.eval (x i) * ((derivative (locator k x)).eval (x i) * x i)⁻¹) {m : Nat} (hm : m < k) :
    (locator k x * series k x c).coeff m = - P.coeff m := by
  have hs : series k x c = ∑ i ∈ range k, C (c i) * ∑ j ∈ range k, C ((x i)⁻¹ ^ j) * X ^ j := by
    unfold series
    simp only [map_sum, sum_mul, mul_sum]
    rw [sum_comm]
    apply sum_congr rfl; intro i _
    apply sum_congr rfl; intro j _
    rw [map_mul, mul_assoc]
  have hA : ∀ i, i < k → locator k x = (X - C (x i)) * ∏ j ∈ (range k).erase i, (X - C (x j)) := by
    intro i hi
    exact (mul_prod_erase (range k) (fun j => X - C (x j)) (mem_range.mpr hi)).symm
  have key : locator k x * series k x c
      = X ^ k * (∑ i ∈ range k, C (c i) * C (x i * (x i)⁻¹ ^ k) * ∏ j ∈ (range k).erase i, (X - C (x j))) - P := by
    rw [hs, mul_sum]
    conv_rhs => rw [interpolate_eq hx hP]
    rw [mul_sum, ← sum_sub_distrib]
    apply sum_congr rfl
    intro i hi
    have hi' := mem_range.mp hi
    have ht := telescope (x i) (hx0 i hi') k
    have hci : C (P.eval (x i) * ((derivative (locator k x)).eval (x i))⁻¹) = C (c i) * C (x i) := by
      rw [← map_mul, hc i hi', mul_inv]
      congr 1
      have := hx0 i hi'
      field_simp
    rw [hci]
    nth_rewrite 1 [hA i hi']
    calc _ = C (c i) * (∏ j ∈ (range k).erase i, (X - C (x j))) *
        ((X - C (x i)) * ∑ j ∈ range k, C ((x i)⁻¹ ^ j) * X ^ j) := by ring
      _ = _ := by rw [ht]; ring
  rw [key, coeff_sub, coeff_X_pow_mul', if_neg (by omega), zero_sub]

/-- Interpolation when one of the points may be zero: that point is left out of the series. -/
theorem locator_mul_series_coeff_zero {k : Nat} {x : Nat → K} (hx : Set.InjOn x (range k)) {P : K[X]} (hP : P.degree < k) {c : Nat → K}
    {z : Option Nat} (hz : ∀ i, i < k → (some i = z ↔ x i = 0)) (hc0 : ∀ i, i < k → x i = 0 → c i = 0)
    (hc : ∀ i, i < k → x i ≠ 0 → c i = P.eval (x i) * ((derivative (locator k x)).eval (x i) * x i)⁻¹) {m : Nat} (hm : m < k) :
    (locator k x * series k x c).coeff m = - P.coeff m + ∑ i ∈ range k,
      if some i = z then P.eval (x i) * ((derivative (locator k x)).eval (x i))⁻¹ * (locator k x).coeff (m + 1) else 0 := by
  have hs : series k x c = ∑ i ∈ range k, C (c i) * ∑ j ∈ range k, C ((x i)⁻¹ ^ j) * X ^ j := by
    unfold series
    simp only [map_sum, sum_mul, mul_sum]
    rw [sum_comm]
    apply sum_congr rfl; intro i _
    apply sum_congr rfl; intro j _
    rw [map_mul, mul_assoc]
  have hA : ∀ i, i < k → locator k x = (X - C (x i)) * ∏ j ∈ (range k).erase i, (X - C (x j)) := by
    intro i hi
    exact (mul_prod_erase (range k) (fun j => X - C (x j)) (mem_range.mpr hi)).symm
  have key : locator k x * series k x c
      = X ^ k * (∑ i ∈ range k, C (c i) * C (x i * (x i)⁻¹ ^ k) * ∏ j ∈ (range k).erase i, (X - C (x j))) -
        ∑ i ∈ range k, C (c i * x i) * ∏ j ∈ (range k).erase i, (X - C (x j)) := by
    rw [hs, mul_sum, mul_sum, ← sum_sub_distrib]
    apply sum_congr rfl
    intro i hi
    have hi' := mem_range.mp hi
    by_cases h0 : x i = 0
    · rw [hc0 i hi' h0]; simp
    · have ht := telescope (x i) h0 k
      nth_rewrite 1 [hA i hi']
      calc _ = C (c i) * (∏ j ∈ (range k).erase i, (X - C (x j))) *
          ((X - C (x i)) * ∑ j ∈ range k, C ((x i)⁻¹ ^ j) * X ^ j) := by ring
        _ = _ := by rw [ht]; simp only [map_mul]; ring
  rw [key, coeff_sub, coeff_X_pow_mul', if_neg (by omega), zero_sub]
  have hPm := congrArg (fun Q => coeff Q m) (interpolate_eq hx hP)
  simp only [finset_sum_coeff, coeff_C_mul] at hPm ⊢
  rw [hPm, ← sum_neg_distrib, ← sum_neg_distrib, ← sum_add_distrib]
  apply sum_congr rfl
  intro i hi
  have hi' := mem_range.mp hi
  by_cases h0 : x i = 0
  · rw [if_pos ((hz i hi').2 h0), hA i hi', h0, map_zero, sub_zero, coeff_X_mul, hc0 i hi' h0]
    ring
  · rw [if_neg (fun h => h0 ((hz i hi').1 h)), hc i hi' h0, mul_inv]
    field_simp
    ring

/-! ### evaluation at the powers of a root and back -/

theorem eval_pow_eq_dft {f : K[X]} {N : Nat} (hf : f.natDegree < N) (w : K) (j : Nat) :
    f.eval (w ^ j) = ∑ i ∈ range N, w ^ (j * i) * f.coeff i := by
  rw [eval_eq_sum_range' hf]
  apply sum_congr rfl
  intro i _
  rw [← pow_mul, mul_comm]

theorem dft_eval_inv {f : K[X]} {N : Nat} (hf : f.natDegree < N) {w : K} (hw : IsPrimitiveRoot w N)
    {m : Nat} (hm : m < N) :
    ∑ j ∈ range N, w⁻¹ ^ (m * j) * f.eval (w ^ j) = (N : K) * f.coeff m := by
  have h := dft_dft_inv (M := K) (by omega) hw (fun i => f.coeff i) hm
  simp only [dft, smul_eq_mul] at h
  rw [← h]
  apply sum_congr rfl
  intro j _
  rw [eval_pow_eq_dft hf]

/-- sum over `range n` of a function supported on the image of `z` -/
theorem sum_support {k n : Nat} {z : Nat → Nat} (hz : Set.InjOn z (range k)) (hzn : ∀ i, i < k → z i < n)
    {f : Nat → K} (hf : ∀ j, j < n → (∀ i, i < k → z i ≠ j) → f j = 0) :
    ∑ j ∈ range n, f j = ∑ i ∈ range k, f (z i) := by
  rw [← sum_image (f := f) hz]
  symm
  apply sum_subset
  · intro j hj
    obtain ⟨i, hi, rfl⟩ := mem_image.mp hj
    exact mem_range.mpr (hzn i (mem_range.mp hi))
  · intro j hj hn
    refine hf j (mem_range.mp hj) (fun i hi he => hn (mem_image.mpr ⟨i, mem_range.mpr hi, he⟩))

end Quad
