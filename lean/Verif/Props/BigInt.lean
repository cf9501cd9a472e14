import Mathlib.Tactic.NormNum
import Mathlib.Tactic.Positivity
import Verif.Spec.BigInt

/-!
# C74: the 256-bit integer types

C74 asks that the values and results of these types be the integers they stand for.
-/

namespace Quad.Props
open Quad Quad.Spec

private theorem toWord_spec (x : Int) : toWord128 x < 2 ^ 128 ∧ ((toWord128 x : Nat) : Int) = x % 2 ^ 128 := by
  unfold toWord128
  have h0 : 0 ≤ x % 2 ^ 128 := Int.emod_nonneg _ (by norm_num)
  have h1 : x % 2 ^ 128 < 2 ^ 128 := Int.emod_lt_of_pos _ (by norm_num)
  omega

private theorem sval_ofInt (x : Int) : Spec.Int256.Plain (Int256.ofInt x) ∧ sval (Int256.ofInt x) = x % 2 ^ 128 := by
  obtain ⟨h1, h2⟩ := toWord_spec x
  refine ⟨⟨h1, rfl⟩, ?_⟩
  unfold sval Int256.ofInt
  rw [if_pos (by norm_num)]
  simpa using h2

private theorem sval_plain {a : Int256} (h : Spec.Int256.Plain a) : sval a = a.lo := by
  unfold sval
  rw [h.2, if_pos (by norm_num)]
  simp

private theorem uval_plain {a : UInt256} (h : Spec.UInt256.Plain a) : uval a = a.lo := by
  unfold uval
  rw [h.2]; simp

/-- C74, products and remainders of `UInt256`: a product is the low half of the true one, a remainder is right. -/
theorem C74_unsigned_partial {a : UInt256} (h : Spec.UInt256.Plain a) {x : Nat} (hx : x < 2 ^ 128) :
    Spec.UInt256.Plain (a.mul x) ∧ uval (a.mul x) = uval a * x % 2 ^ 128 ∧
      (0 < x → ∃ r, a.mod x = .ok r ∧ Spec.UInt256.Plain r ∧ uval r = uval a % x) ∧ a.toWord = uval a := by
  have hm : Spec.UInt256.Plain (a.mul x) := ⟨Nat.mod_lt _ (by norm_num), rfl⟩
  refine ⟨hm, by rw [uval_plain hm, uval_plain h]; rfl, fun h0 => ⟨UInt256.ofWord (a.lo % x), ?_, ⟨(Nat.mod_lt _ h0).trans hx, rfl⟩, ?_⟩, (uval_plain h).symm⟩
  · unfold UInt256.mod
    rw [if_neg (by omega)]
  · rw [uval_plain h, uval_plain ⟨(Nat.mod_lt _ h0).trans hx, rfl⟩]
    rfl

/-- C74 holds for a product exactly if it fits 128 bits: the high half is never used. -/
theorem C74_product_exact {a : UInt256} (h : Spec.UInt256.Plain a) {x : Nat} (hx : x < 2 ^ 128) : uval (a.mul x) = uval a * x ↔ uval a * x < 2 ^ 128 := by
  rw [(C74_unsigned_partial h hx).2.1]
  constructor
  · intro e
    rw [← e]
    exact Nat.mod_lt _ (by norm_num)
  · exact Nat.mod_eq_of_lt

/-- C74, `Int256`: every operation gives the true result modulo 2^128, and never a negative number; comparisons are between numbers modulo
2^128. -/
theorem C74_signed_partial {a c : Int256} (ha : Spec.Int256.Plain a) (hc : Spec.Int256.Plain c) {x : Nat} (i : Int) :
    (sval (Int256.ofInt i) = i % 2 ^ 128 ∧ Spec.Int256.Plain (Int256.ofInt i)) ∧
    (sval (a.add x) = (sval a + x) % 2 ^ 128 ∧ Spec.Int256.Plain (a.add x)) ∧
    (sval (a.sub c) = (sval a - sval c) % 2 ^ 128 ∧ Spec.Int256.Plain (a.sub c)) ∧
    (sval (a.mul c) = (sval a * sval c) % 2 ^ 128 ∧ Spec.Int256.Plain (a.mul c)) ∧
    (sval c ≠ 0 → ∃ q, a.div c = .ok q ∧ Spec.Int256.Plain q ∧ sval q = sval a / sval c) ∧
    (a.lt i = true ↔ sval a < i % 2 ^ 128) ∧ (a.ne i = true ↔ sval a ≠ i % 2 ^ 128) ∧ (a.toWord : Int) = sval a := by
  rw [sval_plain ha, sval_plain hc]
  obtain ⟨h1, h2⟩ := toWord_spec i
  refine ⟨⟨(sval_ofInt i).2, (sval_ofInt i).1⟩, ⟨(sval_ofInt _).2, (sval_ofInt _).1⟩, ⟨(sval_ofInt _).2, (sval_ofInt _).1⟩,
    ⟨(sval_ofInt _).2, (sval_ofInt _).1⟩, fun h0 => ?_, ?_, ?_, rfl⟩
  · refine ⟨_, if_neg (by omega), (sval_ofInt _).1, ?_⟩
    rw [(sval_ofInt _).2, Int.emod_eq_of_lt (by positivity) ?_]
    · push_cast; rfl
    · have := Nat.div_le_self a.lo c.lo
      have := ha.1
      omega
  · unfold Int256.lt
    rw [decide_eq_true_iff, ← h2]
    omega
  · unfold Int256.ne
    rw [decide_eq_true_iff, ← h2]
    omega

/-- C74 fails: no difference is negative, and none compares below 0, whatever the operands. -/
theorem C74_never_negative (a c : Int256) : (a.sub c).lt 0 = false ∧ 0 ≤ sval (a.sub c) := by
  constructor
  · unfold Int256.lt
    have : toWord128 0 = 0 := rfl
    simp [this]
  · have := (sval_ofInt ((a.lo : Int) - c.lo)).2
    rw [show a.sub c = Int256.ofInt ((a.lo : Int) - c.lo) from rfl, this]
    exact Int.emod_nonneg _ (by norm_num)

/-- C74 fails: a number compares below every negative `int` it is not congruent to or above. -/
theorem C74_below_negative {a : Int256} (ha : a.lo < 2 ^ 127) {i : Int} (hi : i < 0) (hi' : -2 ^ 31 ≤ i) : a.lt i = true := by
  unfold Int256.lt
  rw [decide_eq_true_iff]
  obtain ⟨h1, h2⟩ := toWord_spec i
  omega

/-- C74 fails: dividing by a negative `int` gives 0 for every number below `2^127`. -/
theorem C74_divides_by_negative {a : Int256} (ha : a.lo < 2 ^ 127) {i : Int} (hi : i < 0) (hi' : -2 ^ 31 ≤ i) :
    ∃ q, a.divInt i = .ok q ∧ sval q = 0 := by
  obtain ⟨h1, h2⟩ := toWord_spec i
  refine ⟨_, if_neg (by omega), ?_⟩
  rw [(sval_ofInt _).2, Nat.div_eq_of_lt (by omega)]
  rfl

/-- C74, division by an `int` that is not negative: the quotient; division by 0, like the remainder, is undefined. -/
theorem C74_divides_partial {a : Int256} (ha : Spec.Int256.Plain a) {i : Int} (hi : 0 ≤ i) (hi' : i < 2 ^ 31) :
    (i ≠ 0 → ∃ q, a.divInt i = .ok q ∧ Spec.Int256.Plain q ∧ sval q = sval a / i) ∧ (i = 0 → a.divInt i = ub) ∧
      (∀ u : UInt256, u.mod 0 = ub) ∧ a.div (Int256.ofInt 0) = ub := by
  obtain ⟨h1, h2⟩ := toWord_spec i
  rw [Int.emod_eq_of_lt hi (by omega)] at h2
  refine ⟨fun h0 => ?_, fun h0 => ?_, fun u => rfl, rfl⟩
  · refine ⟨_, if_neg (by omega), (sval_ofInt _).1, ?_⟩
    rw [(sval_ofInt _).2, sval_plain ha, Int.emod_eq_of_lt (by positivity) ?_]
    · push_cast
      rw [h2]
    · have := Nat.div_le_self a.lo (toWord128 i)
      have := ha.1
      omega
  · subst h0; rfl

/-- What Model/Ring.lean and Model/Arith.lean compute with for `__uint128_t` are these operators. -/
theorem C74_in_ring {card x y : Nat} (hc : 0 < card) {sgn : Bool} :
    ∃ r, ((UInt256.ofWord x).mul y).mod card = .ok r ∧ r.toWord = (RingModN.mk 128 128 sgn card).mul x y := by
  refine ⟨_, if_neg (by omega), ?_⟩
  rfl

@[inherit_doc C74_in_ring]
theorem C74_in_gcd {a c : Int256} (ha : Spec.Int256.Plain a) (hc : Spec.Int256.Plain c) :
    Arith.SInt.int256.norm (sval a - sval c) = .ok (sval (a.sub c)) ∧ Arith.SInt.int256.norm (sval a * sval c) = .ok (sval (a.mul c)) ∧
      (sval c ≠ 0 → ∃ q, a.div c = .ok q ∧ Arith.SInt.int256.norm (Int.tdiv (sval a) (sval c)) = .ok (sval q)) := by
  obtain ⟨_, _, h3, h4, h5, _⟩ := C74_signed_partial ha hc (x := 0) 0
  refine ⟨by rw [h3.1]; rfl, by rw [h4.1]; rfl, fun h0 => ?_⟩
  obtain ⟨q, e, hq, hv⟩ := h5 h0
  refine ⟨q, e, ?_⟩
  have : 0 ≤ sval a := by rw [sval_plain ha]; omega
  have hn : 0 ≤ sval c := by rw [sval_plain hc]; omega
  rw [Int.tdiv_eq_ediv_of_nonneg this, hv]
  show Except.ok (sval a / sval c % 2 ^ 128) = _
  have hb : sval a / sval c < 2 ^ 128 := by
    rw [← hv, sval_plain hq]
    have := hq.1
    omega
  rw [Int.emod_eq_of_lt (Int.ediv_nonneg this hn) hb]

/-! ## Cases -/

/-- a product that fits, one that does not, and a difference that should be negative -/
example : uval ((UInt256.ofWord (2 ^ 64)).mul (2 ^ 63)) = 2 ^ 127 ∧ uval ((UInt256.ofWord (2 ^ 64)).mul (2 ^ 64)) = 0 ∧
    sval ((Int256.ofInt 3).sub (Int256.ofInt 5)) = 2 ^ 128 - 2 := by decide +kernel

end Quad.Props
