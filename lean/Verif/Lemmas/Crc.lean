import Verif.Model.Bench
import Verif.Lemmas.FecUb

/-!
# The checksum of the benchmark's chunks
-/

namespace Quad.Bench

theorem xor_left_comm (a b c : Nat) : a ^^^ (b ^^^ c) = b ^^^ (a ^^^ c) := by
  rw [← Nat.xor_assoc, Nat.xor_comm a b, Nat.xor_assoc]

theorem xor_left_inj {a b c : Nat} (h : c ^^^ a = c ^^^ b) : a = b := by
  have := congrArg (fun x => c ^^^ x) h
  simpa only [← Nat.xor_assoc, Nat.xor_self, Nat.zero_xor] using this

theorem xor_eq_zero {a b : Nat} (h : a ^^^ b = 0) : a = b := by
  have := congrArg (fun x => a ^^^ x) h
  simp only [← Nat.xor_assoc, Nat.xor_self, Nat.zero_xor, Nat.xor_zero] at this
  exact this.symm

theorem crcBit_eq (x : Nat) : crcBit x = (x >>> 1) ^^^ (if x.testBit 0 then POLY else 0) := by
  unfold crcBit
  rw [Nat.and_one_is_mod, Nat.testBit_zero]
  by_cases h : x % 2 = 1
  · rw [if_pos (by omega), if_pos (by simpa using h)]
  · rw [if_neg (by omega), if_neg (by simpa using h), Nat.xor_zero]

theorem crcBit_xor (x y : Nat) : crcBit (x ^^^ y) = crcBit x ^^^ crcBit y := by
  simp only [crcBit_eq, Nat.shiftRight_xor_distrib, Nat.testBit_xor]
  cases x.testBit 0 <;> cases y.testBit 0
  · simp
  · simp [Nat.xor_assoc]
  · simp only [Bool.xor_false, if_true, if_false, Bool.false_eq_true, Nat.xor_zero]
    rw [Nat.xor_assoc, Nat.xor_comm (y >>> 1), Nat.xor_assoc]
  · simp only [Bool.xor_self, if_true, if_false, Bool.false_eq_true, Nat.xor_zero]
    rw [Nat.xor_assoc, xor_left_comm POLY, Nat.xor_self, Nat.xor_zero]

theorem crcBit_double (x : Nat) : crcBit (2 * x) = x := by
  rw [crcBit_eq, Nat.testBit_zero, if_neg (by simp), Nat.xor_zero, Nat.shiftRight_eq_div_pow]
  omega

theorem crcBit_zero : crcBit 0 = 0 := by decide

theorem crcBit_lt {x : Nat} (h : x < 2 ^ 32) : crcBit x < 2 ^ 32 := by
  rw [crcBit_eq]
  refine Nat.xor_lt_two_pow ?_ ?_
  · rw [Nat.shiftRight_eq_div_pow]; omega
  · split <;> decide

theorem crcBit_ne {x : Nat} (h : x < 2 ^ 32) (h0 : crcBit x = 0) : x = 0 := by
  rw [crcBit_eq] at h0
  replace h0 := xor_eq_zero h0
  rw [Nat.shiftRight_eq_div_pow] at h0
  split at h0
  · have : POLY = 0x82f63b78 := rfl
    omega
  · rename_i hb
    rw [Nat.testBit_zero] at hb
    have : ¬ x % 2 = 1 := by simpa using hb
    omega

/-- `n` turns of the inner loop -/
def bits (n x : Nat) : Nat := crcBit^[n] x

theorem bits_xor (n x y : Nat) : bits n (x ^^^ y) = bits n x ^^^ bits n y := by
  induction n generalizing x y with
  | zero => rfl
  | succ n ih => unfold bits at *; simp only [Function.iterate_succ, Function.comp_apply, crcBit_xor, ih]

theorem bits_add (m n x : Nat) : bits (m + n) x = bits m (bits n x) := Function.iterate_add_apply ..

theorem bits_shift (n x : Nat) : bits n (2 ^ n * x) = x := by
  induction n generalizing x with
  | zero => simp [bits]
  | succ n ih =>
    rw [bits_add, show bits 1 (2 ^ (n + 1) * x) = crcBit (2 * (2 ^ n * x)) from by rw [Nat.pow_succ']; simp [bits, Nat.mul_assoc], crcBit_double, ih]

theorem bits_ne {n x : Nat} (h : x < 2 ^ 32) (h0 : bits n x = 0) : x = 0 := by
  induction n generalizing x with
  | zero => exact h0
  | succ n ih =>
    rw [bits_add] at h0
    exact crcBit_ne h (ih (crcBit_lt h) h0)

theorem bits_lt {n x : Nat} (h : x < 2 ^ 32) : bits n x < 2 ^ 32 := by
  induction n generalizing x with
  | zero => exact h
  | succ n ih => rw [bits_add]; exact ih (crcBit_lt h)

theorem bits_inj {n x y : Nat} (hx : x < 2 ^ 32) (hy : y < 2 ^ 32) (h : bits n x = bits n y) : x = y := by
  have : bits n (x ^^^ y) = 0 := by rw [bits_xor, h, Nat.xor_self]
  exact xor_eq_zero (bits_ne (Nat.xor_lt_two_pow hx hy) this)

/-- the number with the given bytes, least first -/
def le : List Nat → Nat
  | [] => 0
  | b :: bs => b + 2 ^ 8 * le bs

theorem le_lt {l : List Nat} (h : ∀ x ∈ l, x < 256) : le l < 2 ^ (8 * l.length) := by
  induction l with
  | nil => simp [le]
  | cons b bs ih =>
    have := ih (fun x hx => h x (by simp [hx]))
    have hb := h b (by simp)
    simp only [le, List.length_cons]
    rw [show 8 * (bs.length + 1) = 8 * bs.length + 8 from by ring, Nat.pow_add]
    omega

theorem le_inj {l l' : List Nat} (h : ∀ x ∈ l, x < 256) (h' : ∀ x ∈ l', x < 256) (hl : l.length = l'.length) (e : le l = le l') : l = l' := by
  induction l generalizing l' with
  | nil => cases l' with
    | nil => rfl
    | cons => simp at hl
  | cons b bs ih =>
    cases l' with
    | nil => simp at hl
    | cons b' bs' =>
      have hb := h b (by simp)
      have hb' := h' b' (by simp)
      simp only [le] at e
      rw [show b = b' from by omega, ih (fun x hx => h x (by simp [hx])) (fun x hx => h' x (List.mem_cons_of_mem _ hx)) (by simpa using hl) (by omega)]

/-- the checksum register after some bytes -/
def crcOf (c : Nat) (l : List Nat) : Nat := l.foldl crcByte c

theorem crcByte_eq (c v : Nat) : crcByte c v = bits 8 (c ^^^ v) := rfl

theorem le_cons_xor {b : Nat} (hb : b < 256) (x : Nat) : b + 2 ^ 8 * x = b ^^^ (2 ^ 8 * x) := by
  rw [Nat.add_comm, Nat.two_pow_add_eq_or_of_lt (by omega : b < 2 ^ 8)]
  apply Nat.eq_of_testBit_eq
  intro i
  rw [Nat.testBit_or, Nat.testBit_xor, Nat.testBit_two_pow_mul]
  by_cases hi : 8 ≤ i
  · rw [Nat.testBit_lt_two_pow (lt_of_lt_of_le (by omega : b < 2 ^ 8) (Nat.pow_le_pow_right (by omega) hi))]
    simp
  · simp [hi]

theorem crcOf_eq {l : List Nat} (h : ∀ x ∈ l, x < 256) (c : Nat) : crcOf c l = bits (8 * l.length) (c ^^^ le l) := by
  induction l generalizing c with
  | nil => simp [crcOf, le, bits]
  | cons b bs ih =>
    have e : crcOf c (b :: bs) = crcOf (crcByte c b) bs := rfl
    rw [e, ih (fun x hx => h x (by simp [hx])), crcByte_eq]
    simp only [le, List.length_cons]
    rw [le_cons_xor (h b (by simp)), ← Nat.xor_assoc, Nat.mul_add, bits_add (8 * bs.length) (8 * 1), show 8 * 1 = 8 from rfl,
      bits_xor 8 (c ^^^ b), bits_shift]

theorem crcOf_append (c : Nat) (l l' : List Nat) : crcOf c (l ++ l') = crcOf (crcOf c l) l' := List.foldl_append

theorem crcOf_lt {c : Nat} {l : List Nat} (hc : c < 2 ^ 32) (h : ∀ x ∈ l, x < 256) : crcOf c l < 2 ^ 32 := by
  induction l generalizing c with
  | nil => exact hc
  | cons b bs ih =>
    refine ih ?_ (fun x hx => h x (by simp [hx]))
    rw [crcByte_eq]
    exact bits_lt (Nat.xor_lt_two_pow hc (lt_trans (h b (by simp)) (by decide)))

/-- the register decides what it was before some bytes -/
theorem crcOf_start {c c' : Nat} {l : List Nat} (hc : c < 2 ^ 32) (hc' : c' < 2 ^ 32) (h : ∀ x ∈ l, x < 256) (e : crcOf c l = crcOf c' l) : c = c' := by
  rw [crcOf_eq h, crcOf_eq h, bits_xor, bits_xor] at e
  rw [Nat.xor_comm (bits _ c), Nat.xor_comm (bits _ c')] at e
  exact bits_inj hc hc' (xor_left_inj e)

/-- the register decides the last four bytes, or fewer -/
theorem crcOf_burst {c : Nat} {l l' : List Nat} (hc : c < 2 ^ 32) (h : ∀ x ∈ l, x < 256) (h' : ∀ x ∈ l', x < 256) (hl : l.length = l'.length)
    (h4 : l.length ≤ 4) (e : crcOf c l = crcOf c l') : l = l' := by
  rw [crcOf_eq h, crcOf_eq h', hl] at e
  have h32 : ∀ {l : List Nat}, (∀ x ∈ l, x < 256) → l.length ≤ 4 → le l < 2 ^ 32 := fun q q4 =>
    lt_of_lt_of_le (le_lt q) (Nat.pow_le_pow_right (by omega) (by omega))
  have := bits_inj (Nat.xor_lt_two_pow hc (h32 h h4)) (Nat.xor_lt_two_pow hc (h32 h' (by omega))) e
  exact le_inj h h' hl (xor_left_inj this)

/-- the bytes of a number, least first -/
def bytesOf : Nat → Nat → List Nat
  | 0, _ => []
  | n + 1, x => x % 256 :: bytesOf n (x / 256)

theorem bytesOf_spec (n x : Nat) : (bytesOf n x).length = n ∧ (∀ b ∈ bytesOf n x, b < 256) ∧ le (bytesOf n x) = x % 256 ^ n := by
  induction n generalizing x with
  | zero => simp [bytesOf, le, Nat.mod_one]
  | succ n ih =>
    obtain ⟨h1, h2, h3⟩ := ih (x / 256)
    refine ⟨by simp [bytesOf, h1], ?_, ?_⟩
    · intro b hb
      rcases List.mem_cons.1 hb with rfl | hb
      · exact Nat.mod_lt _ (by decide)
      · exact h2 b hb
    · simp only [bytesOf, le, h3]
      rw [show 256 ^ (n + 1) = 256 * 256 ^ n from Nat.pow_succ', Nat.mod_mul]
      rfl

/-- any five bytes have a twin -/
theorem crcOf_twin {l : List Nat} (h : ∀ x ∈ l, x < 256) (h5 : l.length = 5) :
    ∃ l', (∀ x ∈ l', x < 256) ∧ l'.length = 5 ∧ l' ≠ l ∧ ∀ c, crcOf c l' = crcOf c l := by
  obtain ⟨h1, h2, h3⟩ := bytesOf_spec 5 (le l ^^^ (2 * POLY + 1))
  have hlt : le l ^^^ (2 * POLY + 1) < 2 ^ 40 := Nat.xor_lt_two_pow (by have := le_lt h; rw [h5] at this; exact this) (by decide)
  rw [Nat.mod_eq_of_lt (by exact hlt)] at h3
  refine ⟨_, h2, h1, fun e => ?_, fun c => ?_⟩
  · rw [e] at h3
    have : (2 * POLY + 1) = 0 := by
      have h := congrArg (fun x => le l ^^^ x) h3
      simp only [Nat.xor_self, ← Nat.xor_assoc, Nat.zero_xor] at h
      exact h.symm
    exact absurd this (by unfold POLY; omega)
  · rw [crcOf_eq h2, crcOf_eq h, h1, h3, h5, ← Nat.xor_assoc, bits_xor _ _ (2 * POLY + 1),
      show bits (8 * 5) (2 * POLY + 1) = 0 from by
        rw [bits_add 39 1, show bits 1 (2 * POLY + 1) = 0 from by decide]
        exact bits_shift 39 0, Nat.xor_zero]

end Quad.Bench
