import Verif.Model.Arith
import Verif.Lemmas.ArithSqrt
import Mathlib.Data.Nat.Log
import Mathlib.Data.Nat.ModEq
import Mathlib.Data.Int.GCD
import Mathlib.Tactic.Ring
import Mathlib.Tactic.Linarith
import Mathlib.Tactic.LinearCombination

namespace Quad.Arith

/-! ## exp, exp_mod -/

theorem pow_half (x e : Nat) : (x * x) ^ (e / 2) * (if e % 2 = 1 then x else 1) = x ^ e := by
  have h := Nat.div_add_mod e 2
  rw [← pow_two, ← pow_mul]
  split
  · rename_i h1
    rw [← pow_succ]; congr 1; omega
  · rw [mul_one]; congr 1; omega

theorem expLoop_spec (b : Nat) : ∀ (fuel base e r : Nat), 0 < e → e ≤ fuel →
    wrap b (expLoop b fuel base e r) = wrap b (r * base ^ e) ∧
      (r < 2 ^ b → expLoop b fuel base e r < 2 ^ b) := by
  intro fuel
  induction fuel with
  | zero => intro base e r h1 h2; omega
  | succ f ih =>
    intro base e r he hf
    unfold expLoop
    simp only
    by_cases h0 : e / 2 = 0
    · have h1 : e = 1 := by omega
      subst h1
      simp only [h0, if_true]
      refine ⟨?_, fun _ => Nat.mod_lt _ (by positivity)⟩
      simp [wrap]
    · rw [if_neg h0]
      obtain ⟨i1, i2⟩ := ih (wrap b (base * base)) (e / 2)
        (if e % 2 = 1 then wrap b (r * base) else r) (by omega) (by omega)
      constructor
      · rw [i1]
        unfold wrap
        rw [Nat.mul_mod, Nat.pow_mod, Nat.mod_mod, ← Nat.pow_mod, ← Nat.mul_mod]
        rw [← pow_half base e]
        split
        · have : r * ((base * base) ^ (e / 2) * base) = (r * base) * (base * base) ^ (e / 2) := by ring
          rw [this, Nat.mul_mod (r * base % 2 ^ b), Nat.mod_mod, ← Nat.mul_mod]
        · simp
      · intro hr
        apply i2
        split
        · exact Nat.mod_lt _ (by positivity)
        · exact hr

theorem exp_eq {b base e : Nat} (hb : 0 < b) : exp b base e = wrap b (base ^ e) := by
  have h1 : 1 < 2 ^ b := Nat.one_lt_two_pow (by omega)
  unfold exp
  split
  · rename_i h; subst h; simp [wrap]; exact (Nat.mod_eq_of_lt h1).symm
  · rename_i h
    obtain ⟨i1, i2⟩ := expLoop_spec b e base e 1 (by omega) (le_refl _)
    rw [one_mul] at i1
    rw [← i1, wrap_of_lt (i2 h1)]

theorem expModLoop_spec {b m : Nat} (hm : 1 < m) (hmm : m * m ≤ 2 ^ b) :
    ∀ (fuel base e r : Nat), e ≤ fuel → base < m → r < m →
    expModLoop b m fuel base e r = r * base ^ e % m := by
  intro fuel
  induction fuel with
  | zero =>
    intro base e r he hbase hr
    obtain rfl : e = 0 := by omega
    simp [expModLoop, Nat.mod_eq_of_lt hr]
  | succ f ih =>
    intro base e r he hbase hr
    unfold expModLoop
    split
    · rename_i hpos
      have hw : ∀ x y, x < m → y < m → wrap b (x * y) = x * y := by
        intro x y hx hy
        apply wrap_of_lt
        calc x * y < m * m := Nat.mul_lt_mul'' hx hy
          _ ≤ _ := hmm
      simp only
      rw [hw _ _ hbase hbase, hw _ _ hr hbase]
      rw [ih _ _ _ (by omega) (Nat.mod_lt _ (by omega)) (by split; exact Nat.mod_lt _ (by omega); exact hr)]
      rw [Nat.mul_mod, Nat.pow_mod, Nat.mod_mod, ← Nat.pow_mod, ← Nat.mul_mod, ← pow_half base e]
      split
      · have : r * ((base * base) ^ (e / 2) * base) = (r * base) * (base * base) ^ (e / 2) := by ring
        rw [this, Nat.mul_mod (r * base % m), Nat.mod_mod, ← Nat.mul_mod]
      · simp
    · have : e = 0 := by omega
      subst this; simp [Nat.mod_eq_of_lt hr]

theorem exp_mod_eq {b base e m : Nat} (hm : 0 < m) (hmm : m * m ≤ 2 ^ b) :
    exp_mod b base e m = .ok (base ^ e % m) := by
  unfold exp_mod
  rw [if_neg (by omega)]
  split
  · rename_i h; subst h; simp [Nat.mod_one]
  · rename_i h
    rw [expModLoop_spec (by omega) hmm e _ e 1 (le_refl _) (Nat.mod_lt _ hm) (by omega)]
    rw [one_mul, ← Nat.pow_mod]

/-! ## powers of two -/

theorem toNat_two_pow (k : Nat) : ((2:Int) ^ k).toNat = 2 ^ k := by
  have : ((2:Int) ^ k) = ((2 ^ k : Nat) : Int) := by push_cast; rfl
  rw [this, Int.toNat_natCast]

theorem is_power_of_2_iff (n : Int) : is_power_of_2 n = true ↔ ∃ k : Nat, n = 2 ^ k := by
  unfold is_power_of_2
  simp only [Bool.and_eq_true, decide_eq_true_eq, beq_iff_eq]
  constructor
  · rintro ⟨h1, h2⟩
    have h3 := (Nat.and_sub_one_eq_zero_iff_isPowerOfTwo (n := n.toNat) (by omega)).1 h2
    obtain ⟨k, hk⟩ := h3
    refine ⟨k, ?_⟩
    have : n = (n.toNat : Int) := by omega
    rw [this, hk]; push_cast; rfl
  · rintro ⟨k, rfl⟩
    have hp : (0 : Int) < 2 ^ k := by positivity
    refine ⟨hp, ?_⟩
    rw [toNat_two_pow]
    exact (Nat.and_sub_one_eq_zero_iff_isPowerOfTwo (by positivity)).2 ⟨k, rfl⟩

theorem log2Loop_spec : ∀ (fuel n r : Nat), 0 < n → n ≤ fuel → log2Loop fuel n r = r + Nat.log 2 n := by
  intro fuel
  induction fuel with
  | zero => intro n r h1 h2; omega
  | succ f ih =>
    intro n r hn hf
    unfold log2Loop
    split
    · rename_i h
      rw [ih _ _ (by omega) (by omega), Nat.log_of_one_lt_of_le (by norm_num) (show 2 ≤ n by omega)]
      ring
    · have : n = 1 := by omega
      subst this; simp

theorem log2_eq {n : Nat} (hn : 0 < n) : log2 (n : Int) = .ok (Nat.log 2 n) := by
  unfold log2
  rw [if_neg (by omega)]
  split
  · rename_i h
    have : n = 1 := by omega
    subst this; simp
  · simp only [Int.toNat_natCast]
    rw [log2Loop_spec _ _ _ hn (le_refl _)]; simp

theorem log2_zero : log2 0 = .error (.throws .domainError) := rfl

theorem exp2_eq {b n : Nat} (h : n < b) : exp2 b n = .ok (2 ^ n) := by
  unfold exp2
  rw [if_pos h, Nat.one_shiftLeft, wrap_of_lt (Nat.pow_lt_pow_right (by norm_num) h)]

theorem ceil2_spec {b n : Nat} (hn : 0 < n) (hb : n < 2 ^ (b - 1)) :
    ∃ k, ceil2 b (n : Int) = .ok (2 ^ k) ∧ n ≤ 2 ^ k ∧ ∀ j, n ≤ 2 ^ j → 2 ^ k ≤ 2 ^ j := by
  unfold ceil2
  by_cases hp : is_power_of_2 (n : Int) = true
  · rw [if_pos hp]
    obtain ⟨k, hk⟩ := (is_power_of_2_iff _).1 hp
    have hk' : n = 2 ^ k := by exact_mod_cast hk
    refine ⟨k, ?_, le_of_eq hk', fun j hj => hk' ▸ hj⟩
    simp [hk', toNat_two_pow]
  · rw [if_neg hp, log2_eq hn]
    have hlog : Nat.log 2 n + 1 < b ∨ Nat.log 2 n + 1 ≥ b := lt_or_ge _ _
    have h1 : 2 ^ Nat.log 2 n ≤ n := Nat.pow_log_le_self 2 (by omega)
    have h2 : n < 2 ^ (Nat.log 2 n + 1) := Nat.lt_pow_succ_log_self (by norm_num) n
    have hb0 : 0 < b := by
      rcases Nat.eq_zero_or_pos b with rfl | h
      · simp at hb; omega
      · exact h
    have hlt : Nat.log 2 n + 1 < b := by
      have : 2 ^ Nat.log 2 n < 2 ^ (b - 1) := by omega
      have := (Nat.pow_lt_pow_iff_right (by norm_num : 1 < 2)).1 this
      omega
    refine ⟨Nat.log 2 n + 1, ?_, le_of_lt h2, ?_⟩
    · simp [exp2_eq hlt]
    · intro j hj
      apply Nat.pow_le_pow_right (by norm_num)
      by_contra hc
      have hj2 : j ≤ Nat.log 2 n := by omega
      have : 2 ^ j ≤ 2 ^ Nat.log 2 n := Nat.pow_le_pow_right (by norm_num) hj2
      have hne : n ≠ 2 ^ j := by
        rintro rfl
        exact hp ((is_power_of_2_iff _).2 ⟨j, by push_cast; rfl⟩)
      omega

/-! ## gcd -/

theorem gcdLoop_spec : ∀ (fuel u v : Nat), 0 < v → v ≤ fuel → gcdLoop fuel u v = .ok (Nat.gcd u v) := by
  intro fuel
  induction fuel with
  | zero => intro u v h1 h2; omega
  | succ f ih =>
    intro u v hv hf
    unfold gcdLoop
    simp only
    split
    · rename_i h
      rw [Nat.gcd_eq_right (Nat.dvd_of_mod_eq_zero h)]
    · rename_i h
      have hlt := Nat.mod_lt u hv
      rw [ih _ _ (by omega) (by omega), Nat.gcd_comm v, ← Nat.gcd_rec, Nat.gcd_comm]

theorem gcd_eq (u v : Nat) : gcd u v = .ok (Nat.gcd u v) := by
  unfold gcd
  split
  · rename_i h; subst h; simp
  · split
    · rename_i h; subst h; simp
    · rename_i h _
      exact gcdLoop_spec _ _ _ (by omega) (le_refl _)

/-- the loop of `extended_gcd` on integers without bound -/
def egcdLoopZ : Nat → EGcd → Res EGcd
  | 0, st => if st.r = 0 then .ok st else .error .diverges
  | fuel + 1, st =>
    if st.r = 0 then .ok st
    else
      let q := Int.tdiv st.oldR st.r
      egcdLoopZ fuel
        { oldR := st.r, r := st.oldR - q * st.r
          oldS := st.s, s := st.oldS - q * st.s
          oldT := st.t, t := st.oldT - q * st.t }

def extended_gcdZ (a c : Int) : Res EGcd :=
  egcdLoopZ (c.natAbs + 1)
    { oldR := a, r := c, oldS := 1, s := 0, oldT := 0, t := 1 }

/-- loop invariant of `extended_gcd` -/
structure EInv (a c : Int) (st : EGcd) : Prop where
  bez0 : a * st.oldS + c * st.oldT = st.oldR
  bez1 : a * st.s + c * st.t = st.r
  gcd : Int.gcd st.oldR st.r = Int.gcd a c
  det : st.oldS * st.t - st.oldT * st.s = 1 ∨ st.oldS * st.t - st.oldT * st.s = -1

theorem egcdLoopZ_spec (a c : Int) : ∀ (fuel : Nat) (st : EGcd), EInv a c st → st.r.natAbs ≤ fuel →
    ∃ st', egcdLoopZ fuel st = .ok st' ∧ EInv a c st' ∧ st'.r = 0 := by
  intro fuel
  induction fuel with
  | zero =>
    intro st hi hf
    have : st.r = 0 := by omega
    exact ⟨st, by simp [egcdLoopZ, this], hi, this⟩
  | succ f ih =>
    intro st hi hf
    unfold egcdLoopZ
    split
    · rename_i h; exact ⟨st, rfl, hi, h⟩
    · rename_i h
      have hmod : st.oldR - Int.tdiv st.oldR st.r * st.r = Int.tmod st.oldR st.r := by
        have := Int.tdiv_mul_add_tmod st.oldR st.r
        linarith
      apply ih
      · refine ⟨hi.bez1, ?_, ?_, ?_⟩
        · simp only
          linear_combination hi.bez0 - (Int.tdiv st.oldR st.r) * hi.bez1
        · simp only
          rw [← hi.gcd]
          have := Int.gcd_sub_mul_right_right st.r st.oldR (Int.tdiv st.oldR st.r)
          rw [Int.gcd_comm st.oldR]
          simp [mul_comm]
        · simp only
          rcases hi.det with hd | hd
          · right; linear_combination -hd
          · left; linear_combination -hd
      · simp only
        rw [hmod, Int.natAbs_tmod]
        have : st.oldR.natAbs % st.r.natAbs < st.r.natAbs := Nat.mod_lt _ (by omega)
        omega

theorem extended_gcdZ_spec (a c : Int) :
    ∃ st, extended_gcdZ a c = .ok st ∧ EInv a c st ∧ st.r = 0 := by
  unfold extended_gcdZ
  apply egcdLoopZ_spec
  · refine ⟨by simp, by simp, by simp, by simp⟩
  · simp

end Quad.Arith
