import Mathlib.RingTheory.AdjoinRoot
import Mathlib.FieldTheory.Finite.Extension
import Mathlib.Algebra.CharP.Two
import Mathlib.Data.Nat.Bitwise

/-!
Words as polynomials over the field of two elements.
-/

namespace Quad
open Polynomial

/-- value at `r` of the polynomial whose coefficients are the bits of `a` -/
def bev {K : Type*} [Semiring K] (r : K) (a : Nat) : K :=
  if h : a = 0 then 0 else (if a % 2 = 1 then 1 else 0) + r * bev r (a / 2)
termination_by a
decreasing_by omega

section
variable {K : Type*} [CommRing K] (r : K)

@[simp] theorem bev_zero : bev r 0 = 0 := by rw [bev]; simp

theorem bev_step (a : Nat) : bev r a = (if a % 2 = 1 then 1 else 0) + r * bev r (a / 2) := by
  by_cases h : a = 0
  · subst h; simp
  · rw [bev, dif_neg h]

@[simp] theorem bev_one : bev r 1 = 1 := by rw [bev_step]; simp

theorem bev_two_mul (a : Nat) : bev r (2 * a) = r * bev r a := by
  rw [bev_step]
  simp

theorem bev_mul_pow (a i : Nat) : bev r (a * 2 ^ i) = bev r a * r ^ i := by
  induction i with
  | zero => simp
  | succ i ih => rw [show a * 2 ^ (i + 1) = 2 * (a * 2 ^ i) by ring, bev_two_mul, ih]; ring

@[simp] theorem bev_pow (i : Nat) : bev r (2 ^ i) = r ^ i := by
  have := bev_mul_pow r 1 i
  simpa using this

theorem map_bev {L : Type*} [CommRing L] (g : K →+* L) (a : Nat) : g (bev r a) = bev (g r) a := by
  induction a using Nat.strong_induction_on with
  | _ a ih =>
    rw [bev_step, bev_step (g r)]
    by_cases h : a = 0
    · subst h; simp
    · rw [map_add, map_mul, ih (a / 2) (by omega)]
      split <;> simp

variable [CharP K 2]

theorem bev_xor (a c : Nat) : bev r (a ^^^ c) = bev r a + bev r c := by
  induction a using Nat.strong_induction_on generalizing c with
  | _ a ih =>
    by_cases h : a = 0
    · subst h; simp
    · rw [bev_step, bev_step r a, bev_step r c, Nat.xor_div_two, ih (a / 2) (by omega)]
      have h2 : (1 : K) + 1 = 0 := CharTwo.add_self_eq_zero 1
      have hx : (a ^^^ c) % 2 = (a % 2 + c % 2) % 2 := by
        rw [Nat.xor_mod_two_eq]; omega
      rcases Nat.mod_two_eq_zero_or_one a with h1 | h1 <;> rcases Nat.mod_two_eq_zero_or_one c with h3 | h3 <;>
        simp only [hx, h1, h3] <;> simp <;> linear_combination (norm := ring_nf) (0 : K)
      · linear_combination -h2

end
end Quad
