import Verif.Lemmas.NF4Had

/-!
# Properties of src/gf_nf4.h, gf_nf4.cpp and simd_nf4.h (C15, C16)

`IsNf4 N b n simd`: `N` is the object `NF4<T>(n)` builds for a word type `T` of `b` bits, with the vectorised
functions when `simd` is `some (R, hi)`; `hi` is what the upper half of an AVX2 register loaded with one word holds.
`Packed n a`: the word `a` holds `n` elements of GF(65537), one in each lane of 32 bits.
-/

namespace Quad.Props
open Quad Quad.Spec Quad.NF4 Quad.Spec.IsNf4

variable {N : NF4} {b n : Nat} {simd : Option (Nat × (Nat → Nat))}

/-- a word of values below 65537, as elements of the field -/
theorem nf4_lanes {n : Nat} {f : Nat → Nat} {g : Nat → ZMod 65537} (h : ∀ l, l < n → f l < 65537)
    (hg : ∀ l, l < n → (f l : ZMod 65537) = g l) :
    Packed n (word 32 n f) ∧ ∀ l, l < n → (lane32 (word 32 n f) l : ZMod 65537) = g l := by
  have hw := word_packed h
  exact ⟨hw.1, fun l hl => by rw [hw.2 l hl]; exact hg l hl⟩

/-- the constructor accepts every number of lanes for which there is room, in every build -/
theorem C15_constructor (h : Nf4Build b n simd) : ∃ N, NF4.mk' b n simd = .ok N ∧ IsNf4 N b n simd := by
  have hF : (RingModN.mk 32 64 true 65537).Fits := ⟨by norm_num, by norm_num, by norm_num⟩
  obtain ⟨O, e, _⟩ := RingModN.init_spec hF Quad.prime65537 rfl (by norm_num)
  have : NF4.mk' b n simd = .ok { b := b, n := n, simd := simd, sub_field := O } := by
    unfold NF4.mk'
    have := h.fit
    rw [e, ok_bind, cassert, decide_eq_true (by omega : n ≤ b / 8 / 4)]
    rfl
  exact ⟨_, this, h, this⟩

/-- and refuses more lanes than there is room for -/
theorem C15_constructor_refuses (h : ¬ 32 * n ≤ b) (hb : b = 32 ∨ b = 64 ∨ b = 128) : NF4.mk' b n simd = .error .assertFail := by
  have hF : (RingModN.mk 32 64 true 65537).Fits := ⟨by norm_num, by norm_num, by norm_num⟩
  obtain ⟨O, e, _⟩ := RingModN.init_spec hF Quad.prime65537 rfl (by norm_num)
  unfold NF4.mk'
  rw [e, ok_bind]
  have : ¬ n ≤ b / 8 / 4 := by omega
  simp only [cassert, decide_eq_false this]
  rfl

theorem C15_add (H : IsNf4 N b n simd) {a c : Nat} (ha : Packed n a) (hc : Packed n c) :
    Packed n (N.add a c) ∧ ∀ l, l < n → (lane32 (N.add a c) l : ZMod 65537) = lane32 a l + lane32 c l := by
  rw [H.add_eq ha hc]
  exact nf4_lanes (fun l _ => Nat.mod_lt _ (by norm_num)) (fun l _ => by rw [ZMod.natCast_mod, Nat.cast_add])

theorem C15_sub (H : IsNf4 N b n simd) {a c : Nat} (ha : Packed n a) (hc : Packed n c) :
    Packed n (N.sub a c) ∧ ∀ l, l < n → (lane32 (N.sub a c) l : ZMod 65537) = lane32 a l - lane32 c l := by
  rw [H.sub_eq ha hc]
  refine nf4_lanes (fun l _ => Nat.mod_lt _ (by norm_num)) (fun l hl => ?_)
  rw [ZMod.natCast_mod, Nat.cast_add, Nat.cast_sub (hc.lane l hl).le, ZMod.natCast_self, zero_sub, sub_eq_add_neg]

theorem C15_neg (H : IsNf4 N b n simd) {a : Nat} (ha : Packed n a) :
    Packed n (N.neg a) ∧ ∀ l, l < n → (lane32 (N.neg a) l : ZMod 65537) = -(lane32 a l : ZMod 65537) := by
  rw [H.neg_eq ha]
  refine nf4_lanes (fun l _ => Nat.mod_lt _ (by norm_num)) (fun l hl => ?_)
  rw [ZMod.natCast_mod, Nat.cast_sub (ha.lane l hl).le, ZMod.natCast_self, zero_sub]

theorem C15_mul (H : IsNf4 N b n simd) {a c : Nat} (ha : Packed n a) (hc : Packed n c) :
    Packed n (N.mul a c) ∧ ∀ l, l < n → (lane32 (N.mul a c) l : ZMod 65537) = lane32 a l * lane32 c l := by
  rw [H.mul_eq ha hc]
  exact nf4_lanes (fun l _ => Nat.mod_lt _ (by norm_num)) (fun l _ => by rw [ZMod.natCast_mod, Nat.cast_mul])

/-- the inverse of a lane that holds 0 is 0, with no exception -/
theorem C15_inv (H : IsNf4 N b n simd) {a : Nat} (ha : Packed n a) :
    ∃ r, N.inv a = .ok r ∧ Packed n r ∧ ∀ l, l < n → (lane32 r l : ZMod 65537) = (lane32 a l : ZMod 65537)⁻¹ := by
  refine ⟨_, H.inv_eq ha, nf4_lanes (fun l _ => ZMod.val_lt _) (fun l _ => ?_)⟩
  rw [ZMod.natCast_val, ZMod.cast_id]

theorem C15_div (H : IsNf4 N b n simd) {a c : Nat} (ha : Packed n a) (hc : Packed n c) :
    ∃ r, N.div a c = .ok r ∧ Packed n r ∧
      ∀ l, l < n → (lane32 r l : ZMod 65537) = (lane32 a l : ZMod 65537) / (lane32 c l : ZMod 65537) := by
  refine ⟨_, H.div_eq ha hc, nf4_lanes (fun l _ => ZMod.val_lt _) (fun l _ => ?_)⟩
  rw [ZMod.natCast_val, ZMod.cast_id]

/-- the exponents are the lanes of the second operand, any 32-bit numbers -/
theorem C15_exp (H : IsNf4 N b n simd) {a : Nat} (ha : Packed n a) (c : Nat) :
    Packed n (N.exp a c) ∧ ∀ l, l < n → (lane32 (N.exp a c) l : ZMod 65537) = (lane32 a l : ZMod 65537) ^ lane32 c l := by
  rw [H.exp_eq ha]
  exact nf4_lanes (fun l _ => Nat.mod_lt _ (by norm_num)) (fun l _ => by rw [ZMod.natCast_mod, Nat.cast_pow])

/-- `log` gives in each lane the least positive exponent, or throws when a lane has none -/
theorem C15_log (H : IsNf4 N b n simd) {a : Nat} (ha : Packed n a) (c : Nat) :
    (∃ r, N.log a c = .ok r ∧ Packed n r ∧ ∀ l, l < n → 1 ≤ lane32 r l ∧
      lane32 a l ^ lane32 r l % 65537 = lane32 c l ∧ ∀ j, 1 ≤ j → j < lane32 r l → lane32 a l ^ j % 65537 ≠ lane32 c l) ∨
    (N.log a c = .error (.throws .noSolution) ∧ ∃ l, l < n ∧ ∀ j, 1 ≤ j → lane32 a l ^ j % 65537 ≠ lane32 c l) := by
  exact H.log_spec ha c

/-- `replicate` puts the same value in all lanes -/
theorem C15_replicate (H : IsNf4 N b n simd) {a : Nat} (ha : a < 65537) :
    Packed n (N.replicate a) ∧ ∀ l, l < n → lane32 (N.replicate a) l = a := by
  have h := H.replicate_eq (a := a) (by omega)
  rw [h]
  exact word_packed (fun _ _ => ha)

/-- `hadamard_mul` multiplies the first `len` words of an array by those of another, and leaves the others -/
theorem C15_hadamard_mul (H : IsNf4 N b n simd) {len : Nat} {x y : Array Nat} (hxl : len ≤ x.size) (hyl : len ≤ y.size)
    (hx : ∀ i, i < len → Packed n (gt x i)) (hy : ∀ i, i < len → Packed n (gt y i)) :
    ∃ r, N.hadamard_mul len x y = .ok r ∧ r.size = x.size ∧
      (∀ i, i < len → Packed n (gt r i) ∧ ∀ l, l < n → (lane32 (gt r i) l : ZMod 65537) = lane32 (gt x i) l * lane32 (gt y i) l) ∧
      ∀ i, len ≤ i → gt r i = gt x i := by
  obtain ⟨r, e, s, h⟩ := H.hadamard_eq hxl hyl hx hy
  refine ⟨r, e, s, fun i hi => ?_, fun i hi => by rw [h i, if_neg (by omega)]⟩
  rw [h i, if_pos hi]
  exact C15_mul H (hx i hi) (hy i hi)

/-- a build with two lanes in 64 bits, without vectorised functions, and one with four lanes in 128 bits, with AVX2 -/
theorem build64 : Nf4Build 64 2 none := ⟨by norm_num, by norm_num, by norm_num, by simp⟩
theorem build128 : Nf4Build 128 4 (some (32, fun _ => 255)) :=
  ⟨by norm_num, by norm_num, by norm_num, by
    rintro R hi h
    rw [Option.some.injEq, Prod.mk.injEq] at h
    exact ⟨rfl, Or.inr h.1.symm⟩⟩

/-- a word with 65536 in lane 1, and 65535 in lane 0 -/
example : Packed 2 (65536 * 2 ^ 32 + 65535) :=
  ⟨by norm_num, fun l hl => by rcases (show l = 0 ∨ l = 1 by omega) with rfl | rfl <;> norm_num [lane32]⟩

/-! ## C16 -/

/-- unpacking an element gives `n` values of 16 bits and a flag of `n` bits, which pack to the element -/
theorem C16_pack_unpack (H : IsNf4 N b n simd) {a : Nat} (ha : Packed n a) :
    (N.unpack a).1 < 2 ^ (16 * n) ∧ (N.unpack a).2 < 2 ^ n ∧ N.packFlag (N.unpack a).1 (N.unpack a).2 = a := by
  have hl : ∀ l, l < n → (if lane32 a l = 65536 then 0 else lane32 a l) < 2 ^ 16 := by
    intro l hl
    have := ha.lane l hl
    split
    · norm_num
    · omega
  have h1 : (N.unpack a).1 < 2 ^ (16 * n) := by rw [H.unpack_eq ha]; exact word_lt hl
  have h2 : (N.unpack a).2 < 2 ^ n := by rw [H.unpack_eq ha]; exact flagOf_lt n a
  refine ⟨h1, h2, ?_⟩
  rw [H.packFlag_eq h1 h2, H.unpack_eq ha]
  conv_rhs => rw [← word_of_packed ha]
  refine word_congr (fun l hl' => ?_)
  simp only
  rw [flagOf_bit hl']
  by_cases h : lane32 a l = 65536
  · simp [h]
  · rw [decide_eq_false h]
    simp only [Bool.false_eq_true, if_false]
    refine (word_lane (s := 16) hl hl').trans ?_
    rw [if_neg h]

/-- bit `l` of the flag says that lane `l` holds 65536; the other lanes are kept as they are -/
theorem C16_unpack (H : IsNf4 N b n simd) {a : Nat} (ha : Packed n a) {l : Nat} (hl : l < n) :
    (N.unpack a).2.testBit l = decide (lane32 a l = 65536) ∧
    lane16 (N.unpack a).1 l = if lane32 a l = 65536 then 0 else lane32 a l := by
  rw [H.unpack_eq ha]
  refine ⟨flagOf_bit hl, word_lane (s := 16) (fun l hl => ?_) hl⟩
  have := ha.lane l hl
  split
  · norm_num
  · omega

/-- `n` values of 16 bits pack to an element that unpacks to them, with no flag -/
theorem C16_unpack_pack (H : IsNf4 N b n simd) {v : Nat} (hv : v < 2 ^ (16 * n)) :
    Packed n (N.pack v) ∧ N.unpack (N.pack v) = (v, 0) := by
  have hl : ∀ l, lane16 v l < 2 ^ 16 := lane16_lt v
  have hp := word_packed (n := n) (f := lane16 v) (fun l _ => by have := hl l; omega)
  rw [H.pack_eq hv]
  refine ⟨hp.1, ?_⟩
  rw [H.unpack_eq hp.1]
  refine Prod.ext ?_ ?_
  · simp only
    conv_rhs => rw [← word_lanes hv]
    refine word_congr (fun l hl' => ?_)
    rw [hp.2 l hl', if_neg (by have := hl l; omega)]
    rfl
  · refine Nat.eq_of_testBit_eq (fun l => ?_)
    rw [Nat.zero_testBit]
    by_cases hl' : l < n
    · rw [flagOf_bit hl', hp.2 l hl']
      exact decide_eq_false (by have := hl l; omega)
    · exact Nat.testBit_lt_two_pow (lt_of_lt_of_le (flagOf_lt n _) (Nat.pow_le_pow_right (by norm_num) (by omega)))

/-- packing with a flag: 65536 in the lanes whose bit is set, the value in the others -/
theorem C16_pack_flag (H : IsNf4 N b n simd) {v flag : Nat} (hv : v < 2 ^ (16 * n)) (hf : flag < 2 ^ n) :
    Packed n (N.packFlag v flag) ∧ ∀ l, l < n → lane32 (N.packFlag v flag) l = if flag.testBit l then 65536 else lane16 v l := by
  rw [H.packFlag_eq hv hf]
  refine word_packed (fun l _ => ?_)
  have := lane16_lt v l
  split
  · norm_num
  · omega

end Quad.Props
