import Verif.Model.Fft2n
import Mathlib.Algebra.BigOperators.Group.Finset.Basic
import Mathlib.Tactic.Ring
import Mathlib.Tactic.Linarith

/-! Bit reversal: arithmetic definition and the loop of `reverse_bitwise`. -/

namespace Quad

/-- reversal of the `L` low bits -/
def bitrev : Nat → Nat → Nat
  | 0, _ => 0
  | L + 1, x => (x % 2) * 2 ^ L + bitrev L (x / 2)

theorem bitrev_lt (L x : Nat) : bitrev L x < 2 ^ L := by
  induction L generalizing x with
  | zero => simp [bitrev]
  | succ L ih =>
    have h1 := ih (x / 2)
    have h2 : x % 2 ≤ 1 := by omega
    have h3 : (x % 2) * 2 ^ L ≤ 1 * 2 ^ L := Nat.mul_le_mul_right _ h2
    have : 2 ^ (L + 1) = 2 * 2 ^ L := by rw [pow_succ]; ring
    unfold bitrev; omega

/-- peeling the top bit instead of the bottom one -/
theorem bitrev_top (L x : Nat) : bitrev (L + 1) x = 2 * bitrev L (x % 2 ^ L) + (x / 2 ^ L) % 2 := by
  induction L generalizing x with
  | zero => simp [bitrev]
  | succ L ih =>
    rw [bitrev, ih (x / 2)]
    have e1 : x % 2 ^ (L + 1) % 2 = x % 2 := by
      rw [pow_succ]; exact Nat.mod_mul_left_mod _ _ _
    have e2 : x % 2 ^ (L + 1) / 2 = x / 2 % 2 ^ L := by
      rw [show (2:Nat) ^ (L + 1) = 2 * 2 ^ L by rw [pow_succ]; ring, Nat.mod_mul_right_div_self]
    have e3 : x / 2 / 2 ^ L = x / 2 ^ (L + 1) := by
      rw [Nat.div_div_eq_div_mul, show (2:Nat) * 2 ^ L = 2 ^ (L + 1) by rw [pow_succ]; ring]
    rw [e3]
    conv_rhs => rw [bitrev, e1, e2]
    rw [pow_succ]; ring

/-- appending a low bit -/
theorem bitrev_bit (L c e : Nat) (he : e < 2) : bitrev (L + 1) (2 * c + e) = e * 2 ^ L + bitrev L c := by
  have h1 : (2 * c + e) % 2 = e := by omega
  have h2 : (2 * c + e) / 2 = c := by omega
  rw [bitrev, h1, h2]

theorem bitrev_two_mul (L c : Nat) : bitrev (L + 1) (2 * c) = bitrev L c := by
  have := bitrev_bit L c 0 (by omega)
  simpa using this

theorem bitrev_two_mul_add_one (L c : Nat) : bitrev (L + 1) (2 * c + 1) = 2 ^ L + bitrev L c := by
  have := bitrev_bit L c 1 (by omega)
  simpa using this

theorem bitrev_mod (L x : Nat) : bitrev L (x % 2 ^ L) = bitrev L x := by
  cases L with
  | zero => simp [bitrev]
  | succ L =>
    rw [bitrev_top, bitrev_top]
    have e1 : x % 2 ^ (L + 1) % 2 ^ L = x % 2 ^ L :=
      Nat.mod_mod_of_dvd _ (pow_dvd_pow 2 (by omega))
    have e2 : x % 2 ^ (L + 1) / 2 ^ L = x / 2 ^ L % 2 := by
      rw [pow_succ, Nat.mod_mul_right_div_self]
    rw [e1, e2, Nat.mod_mod]

theorem bitrev_bitrev (L x : Nat) (h : x < 2 ^ L) : bitrev L (bitrev L x) = x := by
  induction L generalizing x with
  | zero => simp at h; simp [bitrev, h]
  | succ L ih =>
    have hp : 2 ^ (L + 1) = 2 * 2 ^ L := by rw [pow_succ]; ring
    rw [bitrev_top L x]
    have h2 : x / 2 ^ L < 2 := by
      rw [Nat.div_lt_iff_lt_mul (by positivity)]; omega
    rw [Nat.mod_eq_of_lt h2, bitrev_bit _ _ _ h2, ih _ (Nat.mod_lt _ (by positivity))]
    rw [mul_comm]; exact Nat.div_add_mod x (2 ^ L)

/-- a short index is reversed into the high bits -/
theorem bitrev_short (L d x : Nat) (h : x < 2 ^ d) : bitrev (L + d) x = 2 ^ L * bitrev d x := by
  induction d generalizing x with
  | zero =>
    simp at h; subst h
    have : ∀ L, bitrev L 0 = 0 := by
      intro L; induction L with
      | zero => rfl
      | succ L ih => simp [bitrev, ih]
    simp [this]
  | succ d ih =>
    have hp : 2 ^ (d + 1) = 2 * 2 ^ d := by rw [pow_succ]; ring
    rw [show L + (d + 1) = (L + d) + 1 by ring, bitrev, bitrev, ih _ (by omega)]
    rw [pow_add]; ring

/-! ### the loop -/

theorem revLoop_spec {x L : Nat} : ∀ (k fuel res : Nat), k ≤ L → k + 1 < fuel →
    res < 2 ^ (L - k) →
    revLoop x L fuel (if k = 0 then 0 else 2 ^ (k - 1)) (k - 1) res
      = res + 2 ^ (L - k) * bitrev k (x % 2 ^ k) := by
  intro k
  induction k with
  | zero =>
    intro fuel res _ hf _
    obtain ⟨f, rfl⟩ : ∃ f, fuel = f + 1 := ⟨fuel - 1, by omega⟩
    simp [revLoop, bitrev]
  | succ k ih =>
    intro fuel res hk hf hres
    obtain ⟨f, rfl⟩ : ∃ f, fuel = f + 1 := ⟨fuel - 1, by omega⟩
    rw [if_neg (by omega), revLoop, Nat.add_sub_cancel, if_pos (by positivity)]
    have hbit : ((x &&& 2 ^ k) >>> k) % 256 = x / 2 ^ k % 2 := by
      rw [Nat.shiftRight_and_distrib, Nat.shiftRight_eq_div_pow, Nat.shiftRight_eq_div_pow,
        Nat.div_self (by positivity), Nat.and_one_is_mod]
      omega
    simp only [hbit]
    rw [if_pos (by omega)]
    set bt := x / 2 ^ k % 2 with hbt
    have hbt2 : bt < 2 := by omega
    have hsh : res ||| bt <<< (L - 1 - k) = res + 2 ^ (L - (k + 1)) * bt := by
      rw [Nat.shiftLeft_eq, show L - 1 - k = L - (k + 1) by omega, Nat.or_comm]
      rw [mul_comm bt, ← Nat.two_pow_add_eq_or_of_lt hres]; ring
    rw [hsh]
    have hmask : 2 ^ k >>> 1 = if k = 0 then 0 else 2 ^ (k - 1) := by
      rw [Nat.shiftRight_eq_div_pow]
      split
      · rename_i h; subst h; rfl
      · rename_i h
        obtain ⟨k', rfl⟩ : ∃ k', k = k' + 1 := ⟨k - 1, by omega⟩
        simp [pow_succ]
    rw [hmask, ih f _ (by omega) (by omega)]
    · rw [bitrev_top k]
      have e1 : x % 2 ^ (k + 1) % 2 ^ k = x % 2 ^ k :=
        Nat.mod_mod_of_dvd _ (pow_dvd_pow 2 (by omega))
      have e2 : x % 2 ^ (k + 1) / 2 ^ k % 2 = bt := by
        rw [pow_succ, Nat.mod_mul_right_div_self, Nat.mod_mod]
      rw [e1, e2]
      have : 2 ^ (L - k) = 2 * 2 ^ (L - (k + 1)) := by
        rw [show L - k = (L - (k + 1)) + 1 by omega, pow_succ]; ring
      rw [this]; ring
    · have : 2 ^ (L - k) = 2 * 2 ^ (L - (k + 1)) := by
        rw [show L - k = (L - (k + 1)) + 1 by omega, pow_succ]; ring
      have : 2 ^ (L - (k + 1)) * bt ≤ 2 ^ (L - (k + 1)) * 1 := Nat.mul_le_mul_left _ (by omega)
      omega

/-- `reverse_bitwise` reverses the low bits -/
theorem reverse_bitwise_eq {x L : Nat} (hx : x < 2 ^ L) : reverse_bitwise x (2 ^ L) L = bitrev L x := by
  unfold reverse_bitwise
  rw [show L + 2 = (L + 1) + 1 by ring, revLoop, if_pos (by positivity)]
  have h0 : x &&& 2 ^ L = 0 := by
    apply Nat.eq_of_testBit_eq
    intro i
    rw [Nat.testBit_and, Nat.testBit_two_pow]
    by_cases hi : L = i
    · subst hi; simp [Nat.testBit_lt_two_pow hx]
    · simp [hi]
  simp only [h0, lt_irrefl, if_false]
  have hmask : 2 ^ L >>> 1 = if L = 0 then 0 else 2 ^ (L - 1) := by
    rw [Nat.shiftRight_eq_div_pow]
    split
    · rename_i h; subst h; rfl
    · rename_i h
      obtain ⟨k', rfl⟩ : ∃ k', L = k' + 1 := ⟨L - 1, by omega⟩
      simp [pow_succ]
  rw [hmask]
  simp only [Nat.or_zero]
  by_cases hL : L = 0
  · subst hL; simp [revLoop, bitrev]
  · have hfuel := revLoop_spec (x := x) (L := L) L (L + 2) 0 le_rfl (by omega) (by simp)
    have hfuel' : ∀ (k f1 f2 m res : Nat), (m = if k = 0 then 0 else 2 ^ (k - 1)) → k < f1 → k < f2 →
        revLoop x L f1 m (k - 1) res = revLoop x L f2 m (k - 1) res := by
      intro k
      induction k with
      | zero =>
        intro f1 f2 m res hm h1 h2
        obtain ⟨f, rfl⟩ : ∃ f, f1 = f + 1 := ⟨f1 - 1, by omega⟩
        obtain ⟨f', rfl⟩ : ∃ f, f2 = f + 1 := ⟨f2 - 1, by omega⟩
        simp at hm; subst hm; simp [revLoop]
      | succ k ih =>
        intro f1 f2 m res hm h1 h2
        obtain ⟨f, rfl⟩ : ∃ f, f1 = f + 1 := ⟨f1 - 1, by omega⟩
        obtain ⟨f', rfl⟩ : ∃ f, f2 = f + 1 := ⟨f2 - 1, by omega⟩
        rw [if_neg (by omega)] at hm
        rw [revLoop, revLoop]
        split
        · simp only [Nat.add_sub_cancel] at hm ⊢
          apply ih _ _ _ _ _ (by omega) (by omega)
          subst hm
          rw [Nat.shiftRight_eq_div_pow]
          split
          · rename_i h; subst h; rfl
          · rename_i h
            obtain ⟨k', rfl⟩ : ∃ k', k = k' + 1 := ⟨k - 1, by omega⟩
            simp [pow_succ]
        · rfl
    rw [hfuel' L (L + 1) (L + 2) _ 0 rfl (by omega) (by omega), hfuel]
    rw [bitrev_mod]; simp

end Quad
