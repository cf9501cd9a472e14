import Verif.Model.Arith
import Mathlib.Data.Nat.Sqrt
import Mathlib.Tactic.Ring
import Mathlib.Tactic.Linarith
import Mathlib.Tactic.Positivity
import Mathlib.Algebra.Order.Ring.Nat

namespace Quad.Arith

theorem wrap_of_lt {b x : Nat} (h : x < 2 ^ b) : wrap b x = x := Nat.mod_eq_of_lt h

theorem two_pow_mul' (h : Nat) : (2:Nat) ^ (2 * h) = 4 ^ h := by
  rw [pow_mul]; norm_num

theorem pow_sq' (h : Nat) : ((2:Nat) ^ h) ^ 2 = 4 ^ h := by
  rw [← pow_mul, mul_comm, two_pow_mul']

theorem step_bound {h d P Y n n0 : Nat} (hn0 : n0 < 4 ^ h) (e3 : 4 ^ h = 4 * P * 4 ^ d)
    (hn : n + Y ^ 2 * (4 * P) = n0) : (Y + 1) * (4 * P) ≤ 4 ^ h := by
  have hYd : Y + 1 ≤ 2 ^ d := by
    by_contra hc
    have h1 : 2 ^ d ≤ Y := by omega
    have h2 : (2 ^ d) ^ 2 ≤ Y ^ 2 := Nat.pow_le_pow_left h1 2
    rw [pow_sq'] at h2
    have : 4 ^ d * (4 * P) ≤ Y ^ 2 * (4 * P) := Nat.mul_le_mul_right _ h2
    rw [e3, mul_comm (4 * P)] at hn0
    omega
  have hdd : (2:Nat) ^ d ≤ 4 ^ d := Nat.pow_le_pow_left (by norm_num) d
  rw [e3, mul_comm (4 * P)]
  exact Nat.mul_le_mul_right _ (by omega)

/-- one turn of the loop, in scaled form -/
theorem sqrtLoop_step {h d P Y n n0 fuel : Nat} (hP : 0 < P) (hn0 : n0 < 4 ^ h)
    (e3 : 4 ^ h = 4 * P * 4 ^ d)
    (hn : n + Y ^ 2 * (4 * P) = n0) (hlt : n0 < (Y + 1) ^ 2 * (4 * P)) :
    ∃ Y' n', sqrtLoop (2 * h) (fuel + 1) P n (Y * (4 * P)) = sqrtLoop (2 * h) fuel (P / 4) n' (Y' * P)
      ∧ n' + Y' ^ 2 * P = n0 ∧ n0 < (Y' + 1) ^ 2 * P := by
  have hb := step_bound hn0 e3 hn
  have hexp : (Y + 1) * (4 * P) = Y * (4 * P) + 4 * P := by ring
  have hw1 : wrap (2 * h) (Y * (4 * P) + P) = Y * (4 * P) + P := by
    apply wrap_of_lt; rw [two_pow_mul']; omega
  have hw2 : wrap (2 * h) (P * 2) = P * 2 := by
    apply wrap_of_lt; rw [two_pow_mul']; omega
  have hw3 : wrap (2 * h) (Y * (4 * P) + P * 2) = Y * (4 * P) + P * 2 := by
    apply wrap_of_lt; rw [two_pow_mul']; omega
  rw [sqrtLoop, if_neg (by omega), hw1, hw2, hw3]
  have q1 : Y ^ 2 * (4 * P) = 4 * (Y ^ 2 * P) := by ring
  have q2 : (Y + 1) ^ 2 * (4 * P) = 4 * (Y ^ 2 * P) + 8 * (Y * P) + 4 * P := by ring
  have q3 : Y * (4 * P) = 4 * (Y * P) := by ring
  have q4 : (2 * Y + 1) ^ 2 * P = 4 * (Y ^ 2 * P) + 4 * (Y * P) + P := by ring
  have q5 : (2 * Y + 1 + 1) ^ 2 * P = 4 * (Y ^ 2 * P) + 8 * (Y * P) + 4 * P := by ring
  have q6 : (2 * Y) ^ 2 * P = 4 * (Y ^ 2 * P) := by ring
  have q7 : (2 * Y + 1) * P = 2 * (Y * P) + P := by ring
  have q8 : (2 * Y) * P = 2 * (Y * P) := by ring
  split
  · refine ⟨2 * Y + 1, n - (Y * (4 * P) + P), ?_, ?_, ?_⟩
    · congr 1; omega
    · omega
    · omega
  · refine ⟨2 * Y, n, ?_, ?_, ?_⟩
    · congr 1; omega
    · omega
    · omega

theorem sqrtLoop_spec (h : Nat) (n0 : Nat) (hn0 : n0 < 4 ^ h) :
    ∀ (k Y n fuel : Nat), k < h → k + 1 ≤ fuel →
      n + Y ^ 2 * 4 ^ (k + 1) = n0 → n0 < (Y + 1) ^ 2 * 4 ^ (k + 1) →
      sqrtLoop (2 * h) fuel (4 ^ k) n (Y * 4 ^ (k + 1)) = Nat.sqrt n0 := by
  intro k
  induction k with
  | zero =>
    intro Y n fuel hk hf hn hlt
    obtain ⟨fuel, rfl⟩ : ∃ f, fuel = f + 1 := ⟨fuel - 1, by omega⟩
    obtain ⟨Y', n', e, a1, a2⟩ := sqrtLoop_step (h := h) (d := h - 1) (P := 1) (fuel := fuel)
      Nat.one_pos hn0
      (by obtain ⟨j, rfl⟩ : ∃ j, h = j + 1 := ⟨h - 1, by omega⟩
          rw [pow_succ]; simp; ring) (by simpa using hn) (by simpa using hlt)
    have e' : sqrtLoop (2 * h) (fuel + 1) (4 ^ 0) n (Y * 4 ^ (0 + 1))
        = sqrtLoop (2 * h) fuel 0 n' Y' := by simpa using e
    rw [e']
    have hz : sqrtLoop (2 * h) fuel 0 n' Y' = Y' := by cases fuel <;> simp [sqrtLoop]
    rw [hz]
    apply Nat.eq_sqrt.2
    constructor
    · have : Y' * Y' = Y' ^ 2 * 1 := by ring
      omega
    · have : (Y' + 1) * (Y' + 1) = (Y' + 1) ^ 2 * 1 := by ring
      omega
  | succ k ih =>
    intro Y n fuel hk hf hn hlt
    obtain ⟨fuel, rfl⟩ : ∃ f, fuel = f + 1 := ⟨fuel - 1, by omega⟩
    obtain ⟨d, hd⟩ : ∃ d, h = (k + 1) + 1 + d := ⟨h - (k + 2), by omega⟩
    have e2 : (4:Nat) ^ (k + 1 + 1) = 4 * 4 ^ (k + 1) := by rw [pow_succ 4 (k + 1)]; ring
    obtain ⟨Y', n', e, a1, a2⟩ := sqrtLoop_step (h := h) (d := d) (P := 4 ^ (k + 1)) (fuel := fuel)
      (by positivity) hn0 (by rw [hd, pow_add, e2]) (by rw [← e2]; exact hn) (by rw [← e2]; exact hlt)
    rw [e2, e]
    have hdiv : (4:Nat) ^ (k + 1) / 4 = 4 ^ k := by rw [pow_succ]; omega
    rw [hdiv]
    exact ih Y' n' fuel (by omega) (by omega) a1 a2

theorem sqrtPlace_spec (n : Nat) (hn : 0 < n) : ∀ (k fuel : Nat), k + 1 ≤ fuel → n < 4 ^ (k + 1) →
    ∃ j, j ≤ k ∧ sqrtPlace fuel (4 ^ k) n = 4 ^ j ∧ n < 4 ^ (j + 1) := by
  intro k
  induction k with
  | zero =>
    intro fuel hf hlt
    obtain ⟨fuel, rfl⟩ : ∃ f, fuel = f + 1 := ⟨fuel - 1, by omega⟩
    refine ⟨0, le_refl _, ?_, hlt⟩
    unfold sqrtPlace
    rw [if_neg]
    simp; omega
  | succ k ih =>
    intro fuel hf hlt
    obtain ⟨fuel, rfl⟩ : ∃ f, fuel = f + 1 := ⟨fuel - 1, by omega⟩
    unfold sqrtPlace
    split
    · rename_i hgt
      have hdiv : (4:Nat) ^ (k + 1) / 4 = 4 ^ k := by rw [pow_succ]; omega
      rw [hdiv]
      obtain ⟨j, hj, he, hl⟩ := ih fuel (by omega) (by omega)
      exact ⟨j, by omega, he, hl⟩
    · exact ⟨k + 1, le_refl _, rfl, hlt⟩

theorem sqrtPlace_zero : ∀ (fuel k : Nat), k ≤ fuel → sqrtPlace (fuel + 1) (4 ^ k) 0 = 0 := by
  intro fuel
  induction fuel with
  | zero => intro k hk; obtain rfl : k = 0 := by omega
            simp [sqrtPlace]
  | succ f ih =>
    intro k hk
    unfold sqrtPlace
    have : (4:Nat) ^ k > 0 := by positivity
    rw [if_pos this]
    cases k with
    | zero => simp [sqrtPlace]
    | succ k =>
      have hdiv : (4:Nat) ^ (k + 1) / 4 = 4 ^ k := by rw [pow_succ]; omega
      rw [hdiv]; exact ih k (by omega)

/-- The word-level square root is the integer square root. -/
theorem sqrt_eq {b n : Nat} (hb : b % 2 = 0) (hb0 : 0 < b) (hn : n < 2 ^ b) :
    sqrt b n = Nat.sqrt n := by
  obtain ⟨h, rfl⟩ : ∃ h, b = 2 * (h + 1) := ⟨b / 2 - 1, by omega⟩
  have hp : (2:Nat) ^ (2 * (h + 1) - 2) = 4 ^ h := by
    have : 2 * (h + 1) - 2 = 2 * h := by omega
    rw [this, two_pow_mul']
  have h4 : (2:Nat) ^ (2 * (h + 1)) = 4 ^ (h + 1) := two_pow_mul' _
  unfold sqrt
  simp only [hp]
  rcases Nat.eq_zero_or_pos n with rfl | hpos
  · have : sqrtPlace (2 * (h + 1)) (4 ^ h) 0 = 0 := by
      have := sqrtPlace_zero (2 * h + 1) h (by omega)
      simpa [show 2 * (h + 1) = 2 * h + 1 + 1 by ring] using this
    rw [this]
    have : sqrtLoop (2 * (h + 1)) (2 * (h + 1)) 0 0 0 = 0 := by
      rw [show 2 * (h + 1) = 2 * h + 1 + 1 by ring]; simp [sqrtLoop]
    rw [this]; simp
  · obtain ⟨j, hj, he, hl⟩ := sqrtPlace_spec n hpos h (2 * (h + 1)) (by omega) (by rw [h4] at hn; exact hn)
    rw [he]
    have := sqrtLoop_spec (h + 1) n (by rw [← h4]; exact hn) j 0 n (2 * (h + 1)) (by omega) (by omega)
      (by simp) (by simpa using hl)
    simpa using this

end Quad.Arith
