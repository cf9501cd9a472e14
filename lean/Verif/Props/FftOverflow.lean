import Verif.Lemmas.FftOverflow
import Verif.Props.FftOther

/-!
# Lengths the naive, Cooley-Tukey and Good-Thomas transforms do not support (C20)

The conditions `(n - 1)² < 2^31` of C20_naive, C20_cooley_tukey and C20_good_thomas cannot be dropped: without them building the transform
is undefined behaviour, although the field has a root of the order asked for.
-/

namespace Quad.Props
open Quad Quad.Spec Finset

variable {F : GF} {b q : Nat}

/-- C20 is violated: the naive transform for a root of order `n` with `(n - 1)² ≥ 2^31` overflows an `int` while it is built. -/
theorem C20_naive_overflow (h : FieldObj F b q) {n w pkt : Nat} (hn : n ∣ q - 1) (hlt : n < 2 ^ 31) (hsq : 2 ^ 31 ≤ (n - 1) * (n - 1)) (hw : w < q)
    (hord : HasOrder F w n) (mem : Nat → Nat) : Naive.mk' F n w pkt mem = ub := by
  obtain ⟨K, _, S, D⟩ := h.dft
  haveI := h.plain
  have w1 := (D.val w).2 hw
  exact naive_overflow D hlt hn hsq w1 (primitive_of D w1 (D.dvd_pos hn) hord).pow_eq_one mem

/-- C20 is violated: Cooley-Tukey of a length with a prime factor `p`, `(p - 1)² ≥ 2^31`. -/
theorem C20_cooley_tukey_overflow (h : FieldObj F b q) {n : Nat} (hn : n ∣ q - 1) (hlt : n < 2 ^ 31)
    (hsq : ∃ p, p.Prime ∧ p ∣ n ∧ 2 ^ 31 ≤ (p - 1) * (p - 1)) (mem : Nat → Nat) : CooleyTukey.mk' F b n mem = ub := by
  obtain ⟨K, _, S, D⟩ := h.dft
  haveI := h.plain
  exact ct_overflow D mem hlt hn hsq

/-- C20 is violated: Good-Thomas of a length divisible by a power `p^e` of a prime, `(p^e - 1)² ≥ 2^31`. -/
theorem C20_good_thomas_overflow (h : FieldObj F b q) {n : Nat} (hn : n ∣ q - 1) (hlt : n < 2 ^ 31)
    (hsq : ∃ p e, p.Prime ∧ p ^ e ∣ n ∧ 2 ^ 31 ≤ (p ^ e - 1) * (p ^ e - 1)) (mem : Nat → Nat) : GoodThomas.mk' F b n mem = ub := by
  obtain ⟨K, _, S, D⟩ := h.dft
  haveI := h.plain
  exact gt_overflow D mem hlt hn hsq

/-- C20 is violated for the lengths from `2^31` to `2^32`, which are negative as an `int`: the transforms cannot be built, although the field
has a root of the order asked for. -/
theorem C20_too_long (h : FieldObj F b q) {n : Nat} (hn : n ∣ q - 1) (h31 : 2 ^ 31 ≤ n) (h32 : n < 2 ^ 32) (mem : Nat → Nat) :
    CooleyTukey.mk' F b n mem = .error (.throws .badAlloc) ∧ GoodThomas.mk' F b n mem = .error (.throws .badAlloc) ∧
    ∀ w pkt, Naive.mk' F n w pkt mem = .error (.throws .badAlloc) := by
  obtain ⟨K, _, S, D⟩ := h.dft
  haveI := h.plain
  have hi : intLen n = .error (.throws .badAlloc) := by
    unfold intLen
    rw [Nat.mod_eq_of_lt h32, if_neg (by omega)]
  have hnb : n < 2 ^ b := by
    have := Nat.le_of_dvd (by have := D.two; omega) hn
    have := D.room
    have := D.two
    omega
  obtain ⟨w, ew, _⟩ := D.root n hn
  obtain ⟨fs, ef, _⟩ := Arith.get_prime_factors_spec D.even D.pos hnb (by omega)
  refine ⟨?_, ?_, fun w pkt => ?_⟩
  · unfold CooleyTukey.mk'
    rw [ef, ok_bind, ew, ok_bind]
    cases fs <;> simp only [CooleyTukey.build, hi] <;> rfl
  · unfold GoodThomas.mk'
    rw [hi]; rfl
  · unfold Naive.mk'
    rw [hi]; rfl

/-- GF(65537) has a root of order 65536: no naive and no Good-Thomas transform of that length, but Cooley-Tukey works -/
example : 65536 ∣ 65537 - 1 ∧ 2 ^ 31 ≤ (65536 - 1) * (65536 - 1) ∧
    (∃ p e, p.Prime ∧ p ^ e ∣ 65536 ∧ 2 ^ 31 ≤ (p ^ e - 1) * (p ^ e - 1)) ∧ FieldObj O65537.gf 32 65537 :=
  ⟨by decide, by decide, ⟨2, 16, Nat.prime_two, by decide, by decide⟩, .prime isPrimeField65537⟩

/-- Cooley-Tukey of a length that divides the order of the multiplicative group of GF(2^32), `3 * 5 * 17 * 257 * 65537` -/
example {O : BinExt.Obj} (h : IsBinExt O 64 32) :
    FieldObj O.gf 64 (2 ^ 32) ∧ 65537 * 3 ∣ 2 ^ 32 - 1 ∧ 65537 * 3 < 2 ^ 31 ∧ ∃ p, p.Prime ∧ p ∣ 65537 * 3 ∧ 2 ^ 31 ≤ (p - 1) * (p - 1) :=
  ⟨.bin h, by decide, by decide, 65537, by norm_num, by decide, by decide⟩

/-- the whole multiplicative group of GF(2^32) is too long -/
example : 2 ^ 32 - 1 ∣ 2 ^ 32 - 1 ∧ 2 ^ 31 ≤ 2 ^ 32 - 1 ∧ 2 ^ 32 - 1 < 2 ^ 32 := by decide

end Quad.Props
