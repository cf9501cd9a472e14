import Verif.Model.Simd
import Verif.Lemmas.BufElem
import Verif.Lemmas.FecStream

/-!
Registers: what the vectorised operations do to each element.
-/

namespace Quad
namespace Simd

theorem leBytes_range (w v : Nat) : leBytes w v = (List.range w).map (fun t => v / 256 ^ t % 256) := by
  induction w generalizing v with
  | zero => rfl
  | succ w ih =>
    rw [leBytes, ih, List.range_succ_eq_map, List.map_cons, List.map_map]
    congr 1
    · simp
    · apply List.map_congr_left
      intro t _
      simp only [Function.comp_apply, Nat.div_div_eq_div_mul, Nat.pow_succ, Nat.mul_comm]

theorem lane_ofLanes {w : Nat} (hw : 0 < w) {f : Nat → Nat} {i : Nat} (h : f i < 256 ^ w) :
    lane w (ofLanes w f) i = f i := by
  unfold lane ofLanes
  have : (List.range w).map (fun t => f ((i * w + t) / w) / 256 ^ ((i * w + t) % w) % 256) = leBytes w (f i) := by
    rw [leBytes_range]
    apply List.map_congr_left
    intro t ht
    have ht := List.mem_range.mp ht
    rw [Nat.mul_comm i w, Nat.mul_add_div hw, Nat.mul_add_mod, Nat.div_eq_of_lt ht, Nat.mod_eq_of_lt ht, Nat.add_zero]
  rw [this, leVal_leBytes h]

theorem ofLanes_lt (w : Nat) (f : Nat → Nat) (j : Nat) : ofLanes w f j < 256 := Nat.mod_lt _ (by decide)

/-- element sizes of the vectorised code -/
def Lane (w : Nat) : Prop := w = 2 ∨ w = 4

/-- the modulus the constants of the vectorised code are for -/
def P (w : Nat) : Nat := if w = 2 then 257 else 65537

theorem Lane.pos {w : Nat} (h : Lane w) : 0 < w := by rcases h with h | h <;> omega

theorem Lane.P_pos {w : Nat} (h : Lane w) : 2 < P w := by rcases h with h | h <;> subst h <;> decide

theorem Lane.fit {w : Nat} (h : Lane w) : 2 * P w < 256 ^ w := by rcases h with h | h <;> subst h <;> decide

theorem Lane.half {w : Nat} (h : Lane w) : P w = 256 ^ (w / 2) + 1 ∧ 256 ^ w = 256 ^ (w / 2) * 256 ^ (w / 2) := by
  rcases h with h | h <;> subst h <;> decide

variable {w : Nat} (hw : Lane w)
include hw

theorem lane_set_one {v i : Nat} (h : v < 256 ^ w) : lane w (set_one w v) i = v := lane_ofLanes hw.pos h

theorem lane_card {i : Nat} : lane w (card w) i = P w :=
  lane_set_one hw (v := P w) (by have := hw.fit; omega)

theorem lane_card_minus_one {i : Nat} : lane w (card_minus_one w) i = P w - 1 := by
  have : (if w = 2 then 256 else 65536) = P w - 1 := by rcases hw with h | h <;> subst h <;> decide
  unfold card_minus_one
  rw [this]
  exact lane_set_one hw (by have := hw.fit; omega)

theorem lane_add {x y : Reg} {i : Nat} : lane w (add w x y) i = (lane w x i + lane w y i) % 256 ^ w :=
  lane_ofLanes hw.pos (Nat.mod_lt _ (by positivity))

theorem lane_sub {x y : Reg} {i : Nat} : lane w (sub w x y) i = (lane w x i + (256 ^ w - lane w y i)) % 256 ^ w :=
  lane_ofLanes hw.pos (Nat.mod_lt _ (by positivity))

theorem lane_mul {x y : Reg} {i : Nat} : lane w (mul w x y) i = lane w x i * lane w y i % 256 ^ w :=
  lane_ofLanes hw.pos (Nat.mod_lt _ (by positivity))

theorem lane_min {x y : Reg} {i : Nat} (h : lane w x i < 256 ^ w) (h' : lane w y i < 256 ^ w) :
    lane w (min' w x y) i = min (lane w x i) (lane w y i) := by
  unfold min'
  rw [lane_ofLanes hw.pos]
  · by_cases h : lane w x i ≤ lane w y i
    · rw [if_pos h, Nat.min_eq_left h]
    · rw [if_neg h, Nat.min_eq_right (by omega)]
  · split <;> assumption

theorem lane_mod_add {x y : Reg} {i : Nat} (hx : lane w x i < P w) (hy : lane w y i < P w) :
    lane w (mod_add w x y) i = (lane w x i + lane w y i) % P w := by
  have hf := hw.fit
  have hp := hw.P_pos
  have e1 : lane w (add w x y) i = lane w x i + lane w y i := by
    rw [lane_add hw, Nat.mod_eq_of_lt (by omega)]
  unfold mod_add
  dsimp only
  have e2 : lane w (sub w (add w x y) (card w)) i = (lane w x i + lane w y i + (256 ^ w - P w)) % 256 ^ w := by
    rw [lane_sub hw, e1, lane_card hw]
  rw [lane_min hw (by omega) (by rw [e2]; exact Nat.mod_lt _ (by positivity)), e1, e2]
  by_cases h : lane w x i + lane w y i < P w
  · rw [Nat.mod_eq_of_lt h, Nat.mod_eq_of_lt (by omega)]; omega
  · rw [show lane w x i + lane w y i + (256 ^ w - P w) = lane w x i + lane w y i - P w + 256 ^ w by omega,
      Nat.add_mod_right, Nat.mod_eq_of_lt (by omega), Nat.mod_eq_sub_mod (by omega), Nat.mod_eq_of_lt (by omega)]
    omega

theorem lane_mod_sub {x y : Reg} {i : Nat} (hx : lane w x i < P w) (hy : lane w y i < P w) :
    lane w (mod_sub w x y) i = (lane w x i + (P w - lane w y i)) % P w := by
  have hf := hw.fit
  have hp := hw.P_pos
  unfold mod_sub
  dsimp only
  have e2 : lane w (add w (sub w x y) (card w)) i =
      ((lane w x i + (256 ^ w - lane w y i)) % 256 ^ w + P w) % 256 ^ w := by
    rw [lane_add hw, lane_sub hw, lane_card hw]
  rw [lane_min hw (by rw [lane_sub hw]; exact Nat.mod_lt _ (by positivity))
    (by rw [e2]; exact Nat.mod_lt _ (by positivity)), e2, lane_sub hw]
  by_cases h : lane w y i ≤ lane w x i
  · rw [show lane w x i + (256 ^ w - lane w y i) = lane w x i - lane w y i + 256 ^ w by omega, Nat.add_mod_right,
      Nat.mod_eq_of_lt (a := lane w x i - lane w y i) (by omega), Nat.mod_eq_of_lt (by omega),
      show lane w x i + (P w - lane w y i) = lane w x i - lane w y i + P w by omega, Nat.add_mod_right,
      Nat.mod_eq_of_lt (by omega)]
    omega
  · rw [Nat.mod_eq_of_lt (a := lane w x i + (256 ^ w - lane w y i)) (by omega),
      show lane w x i + (256 ^ w - lane w y i) + P w = lane w x i + (P w - lane w y i) + 256 ^ w by omega,
      Nat.add_mod_right, Nat.mod_eq_of_lt (by omega), Nat.mod_eq_of_lt (by omega)]
    omega

theorem lane_mod_neg {x : Reg} {i : Nat} (hx : lane w x i < P w) :
    lane w (mod_neg w x) i = (P w - lane w x i) % P w := by
  have hf := hw.fit
  have hp := hw.P_pos
  unfold mod_neg
  dsimp only
  have e1 : lane w (sub w (card w) x) i = P w - lane w x i := by
    rw [lane_sub hw, lane_card hw, show P w + (256 ^ w - lane w x i) = P w - lane w x i + 256 ^ w by omega,
      Nat.add_mod_right, Nat.mod_eq_of_lt (by omega)]
  have e2 : lane w (sub w (sub w (card w) x) (card w)) i = (P w - lane w x i + (256 ^ w - P w)) % 256 ^ w := by
    rw [lane_sub hw, e1, lane_card hw]
  rw [lane_min hw (by omega) (by rw [e2]; exact Nat.mod_lt _ (by positivity)), e1, e2]
  by_cases h : lane w x i = 0
  · rw [h, Nat.sub_zero, Nat.mod_self, show P w + (256 ^ w - P w) = 256 ^ w by omega, Nat.mod_self]; omega
  · rw [Nat.mod_eq_of_lt (a := P w - lane w x i + (256 ^ w - P w)) (by omega), Nat.mod_eq_of_lt (by omega)]; omega

/-- bytes of a register -/
def Bytes (x : Reg) : Prop := ∀ j, x j < 256

omit hw in
theorem bytes_ofLanes (w : Nat) (f : Nat → Nat) : Bytes (ofLanes w f) := ofLanes_lt w f

theorem lane_low {x : Reg} (hx : Bytes x) {i : Nat} : lane w (get_low_half w x) i = lane w x i % 256 ^ (w / 2) := by
  rcases hw with h | h <;> subst h
  · have hm : ∀ t, blend8 zero x MASK8_LO (i * 2 + t) = if t % 2 = 0 then x (i * 2 + t) else 0 := by
      intro t
      unfold blend8 MASK8_LO set_one ofLanes zero
      have : (i * 2 + t) % 2 = t % 2 := by omega
      rw [this]
      rcases Nat.mod_two_eq_zero_or_one t with h | h <;> simp [h]
    have := hx (i * 2)
    have := hx (i * 2 + 1)
    simp [lane, get_low_half, hm, List.range_succ, leVal]
    omega
  · have hm : ∀ t, t < 4 → blend16 zero x I_MASK8_LO (i * 4 + t) = if t < 2 then x (i * 4 + t) else 0 := by
      intro t ht
      unfold blend16 I_MASK8_LO zero
      have e : (i * 4 + t) / 2 % 8 = (i % 4) * 2 + t / 2 := by omega
      rw [e]
      have hi : i % 4 = 0 ∨ i % 4 = 1 ∨ i % 4 = 2 ∨ i % 4 = 3 := by omega
      have ht' : t = 0 ∨ t = 1 ∨ t = 2 ∨ t = 3 := by omega
      rcases hi with h | h | h | h <;> rcases ht' with h' | h' | h' | h' <;> rw [h, h'] <;> rfl
    have h0 := hm 0 (by omega)
    have h1 := hm 1 (by omega)
    have h2 := hm 2 (by omega)
    have h3 := hm 3 (by omega)
    have := hx (i * 4)
    have := hx (i * 4 + 1)
    have := hx (i * 4 + 2)
    have := hx (i * 4 + 3)
    simp only [Nat.add_zero] at h0
    simp [lane, get_low_half, h0, h1, h2, h3, List.range_succ, leVal]
    omega

theorem lane_high {x : Reg} (hx : Bytes x) {i : Nat} : lane w (get_high_half w x) i = lane w x i / 256 ^ (w / 2) := by
  rcases hw with h | h <;> subst h
  · have h0 : blend8 zero (shiftr x 1) MASK8_LO (i * 2) = x (i * 2 + 1) := by
      unfold blend8 MASK8_LO set_one ofLanes shiftr
      rw [if_pos (show i * 2 % 16 + 1 < 16 by omega), Nat.mul_mod_left]; simp
    have h1 : blend8 zero (shiftr x 1) MASK8_LO (i * 2 + 1) = 0 := by
      unfold blend8 MASK8_LO set_one ofLanes zero
      rw [show (i * 2 + 1) % 2 = 1 by omega]; simp
    have := hx (i * 2)
    have := hx (i * 2 + 1)
    simp [lane, get_high_half, h0, h1, List.range_succ, leVal]
    omega
  · have hm : ∀ t, t < 4 → blend16 zero (shiftr x 2) I_MASK8_LO (i * 4 + t) = if t < 2 then x (i * 4 + t + 2) else 0 := by
      intro t ht
      unfold blend16 I_MASK8_LO zero shiftr
      have e : (i * 4 + t) / 2 % 8 = (i % 4) * 2 + t / 2 := by omega
      have e' : (i * 4 + t) % 16 = (i % 4) * 4 + t := by omega
      rw [e, e']
      have hi : i % 4 = 0 ∨ i % 4 = 1 ∨ i % 4 = 2 ∨ i % 4 = 3 := by omega
      have ht' : t = 0 ∨ t = 1 ∨ t = 2 ∨ t = 3 := by omega
      rcases hi with h | h | h | h <;> rcases ht' with h' | h' | h' | h' <;> rw [h, h'] <;> rfl
    have h0 : _ = x (i * 4 + 2) := hm 0 (by omega)
    have h1 : _ = x (i * 4 + 3) := hm 1 (by omega)
    have h2 := hm 2 (by omega)
    have h3 := hm 3 (by omega)
    have := hx (i * 4)
    have := hx (i * 4 + 1)
    have := hx (i * 4 + 2)
    have := hx (i * 4 + 3)
    simp only [Nat.add_zero] at h0
    simp [lane, get_high_half, h0, h1, h2, h3, List.range_succ, leVal]
    omega

/-- `hi * 2^(b/2) + lo` modulo `2^(b/2) + 1` -/
theorem fermat_reduce {q lo hi : Nat} (hlo : lo < q) (hhi : hi ≤ q) :
    (lo + (q + 1 - hi)) % (q + 1) = (hi * q + lo) % (q + 1) := by
  have : hi * q + lo + (q + 1) = lo + (q + 1 - hi) + hi * (q + 1) := by
    have : hi * (q + 1) = hi * q + hi := by ring
    omega
  rw [← Nat.add_mod_right (hi * q + lo), this, Nat.add_mul_mod_self_right]

theorem lane_mod_mul_raw {x y : Reg} {i : Nat} :
    lane w (mod_mul w x y) i = (lane w x i * lane w y i % 256 ^ w) % P w := by
  obtain ⟨hP, hq⟩ := hw.half
  set q := 256 ^ (w / 2) with hqd
  have hq0 : 0 < q := by positivity
  unfold mod_mul
  dsimp only
  have hb : Bytes (mul w x y) := bytes_ofLanes _ _
  have hm : lane w (mul w x y) i < q * q := by rw [lane_mul hw, hq]; exact Nat.mod_lt _ (by positivity)
  have h1 : lane w (mul w x y) i % q < q := Nat.mod_lt _ hq0
  have h2 : lane w (mul w x y) i / q < q := Nat.div_lt_of_lt_mul hm
  rw [lane_mod_sub hw (by rw [lane_low hw hb, ← hqd]; omega) (by rw [lane_high hw hb, ← hqd]; omega), lane_low hw hb,
    lane_high hw hb, ← hqd, hP, fermat_reduce hw h1 (by omega), Nat.div_add_mod', lane_mul hw]

theorem prod_fit {a b : Nat} (ha : a < P w) (hb : b < P w) (h : ¬ (a = P w - 1 ∧ b = P w - 1)) : a * b < 256 ^ w := by
  obtain ⟨hP, hq⟩ := hw.half
  rw [hq]
  set q := 256 ^ (w / 2)
  have hq0 : 0 < q := by positivity
  by_cases h1 : a = q
  · have : b < q := by omega
    subst h1
    exact Nat.mul_lt_mul_of_pos_left this hq0
  · calc a * b ≤ a * q := Nat.mul_le_mul_left _ (by omega)
      _ < q * q := Nat.mul_lt_mul_of_pos_right (by omega) hq0

theorem lane_mod_mul {x y : Reg} {i : Nat} (hx : lane w x i < P w) (hy : lane w y i < P w)
    (h : ¬ (lane w x i = P w - 1 ∧ lane w y i = P w - 1)) :
    lane w (mod_mul w x y) i = lane w x i * lane w y i % P w := by
  rw [lane_mod_mul_raw hw, Nat.mod_eq_of_lt (prod_fit hw hx hy h)]

theorem lane_cmp {x y : Reg} {i : Nat} : lane w (compare_eq w x y) i = if lane w x i = lane w y i then 256 ^ w - 1 else 0 := by
  have : 0 < 256 ^ w := by positivity
  exact lane_ofLanes hw.pos (by split <;> omega)

/-- every byte of a comparison result -/
theorem cmp_byte {x y : Reg} {i t : Nat} (ht : t < w) :
    compare_eq w x y (i * w + t) = if lane w x i = lane w y i then 255 else 0 := by
  unfold compare_eq ofLanes
  rw [Nat.mul_comm i w, Nat.mul_add_div hw.pos, Nat.mul_add_mod, Nat.div_eq_of_lt ht, Nat.mod_eq_of_lt ht, Nat.add_zero]
  dsimp only
  by_cases h : lane w x i = lane w y i
  · rw [if_pos h, if_pos h]
    rcases hw with h | h <;> subst h
    · have : t = 0 ∨ t = 1 := by omega
      rcases this with h | h <;> subst h <;> decide
    · have : t = 0 ∨ t = 1 ∨ t = 2 ∨ t = 3 := by omega
      rcases this with h | h | h | h <;> subst h <;> decide
  · rw [if_neg h, if_neg h]; simp

theorem lane_congr {x y : Reg} {i : Nat} (h : ∀ t, t < w → x (i * w + t) = y (i * w + t)) : lane w x i = lane w y i := by
  unfold lane
  congr 1
  exact List.map_congr_left (fun t ht => h t (List.mem_range.mp ht))

theorem lane_zero {i : Nat} : lane w zero i = 0 := by
  rcases hw with h | h <;> subst h <;> rfl

theorem lane_and_ones {x y : Reg} {i : Nat} {b : Prop} [Decidable b] (hx : Bytes x) (h : ∀ t, t < w → y (i * w + t) = if b then 255 else 0) :
    lane w (bit_and x y) i = if b then lane w x i else 0 := by
  by_cases hb : b
  · rw [if_pos hb]
    refine lane_congr hw (fun t ht => ?_)
    unfold bit_and
    rw [h t ht, if_pos hb]
    have := hx (i * w + t)
    rw [show 255 = 2 ^ 8 - 1 from rfl, Nat.and_two_pow_sub_one_eq_mod, Nat.mod_eq_of_lt this]
  · rw [if_neg hb, ← lane_zero hw (i := i)]
    refine lane_congr hw (fun t ht => ?_)
    unfold bit_and zero
    rw [h t ht, if_neg hb, Nat.and_zero]

theorem lane_mod_mul_safe {R : Nat} {x y : Reg} {i : Nat} (hR : (i + 1) * w ≤ R) (hx : lane w x i < P w) (hy : lane w y i < P w) :
    lane w (mod_mul_safe R w x y) i = lane w x i * lane w y i % P w := by
  obtain ⟨hP, hq⟩ := hw.half
  have hf := hw.fit
  set cmp := bit_and (compare_eq w x (card_minus_one w)) (compare_eq w y (card_minus_one w)) with hc
  have hcb : ∀ t, t < w → cmp (i * w + t) = if lane w x i = P w - 1 ∧ lane w y i = P w - 1 then 255 else 0 := by
    intro t ht
    rw [hc]
    unfold bit_and
    rw [cmp_byte hw ht, cmp_byte hw ht, lane_card_minus_one hw]
    by_cases h1 : lane w x i = P w - 1 <;> by_cases h2 : lane w y i = P w - 1 <;> simp [h1, h2]
  have hone : lane w (bit_and (one w) cmp) i = if lane w x i = P w - 1 ∧ lane w y i = P w - 1 then 1 else 0 := by
    rw [lane_and_ones hw (x := one w) (fun j => ofLanes_lt w (fun _ => 1) j) hcb]
    unfold one
    rw [lane_set_one hw (Nat.one_lt_pow (by have := hw.pos; omega) (by decide))]
  unfold mod_mul_safe
  dsimp only
  rw [← hc]
  by_cases hb : lane w x i = P w - 1 ∧ lane w y i = P w - 1
  · have hz : is_zero R cmp = false := by
      unfold is_zero
      rw [List.all_eq_false]
      refine ⟨i * w, List.mem_range.mpr ?_, ?_⟩
      · have : (i + 1) * w = i * w + w := by ring
        have := hw.pos
        omega
      · have := hcb 0 hw.pos
        rw [if_pos hb, Nat.add_zero] at this
        rw [this]; decide
    simp only [hz, Bool.false_eq_true, if_false]
    rw [lane_add hw, hone, if_pos hb, lane_mod_mul_raw hw, hb.1, hb.2]
    rcases hw with h | h <;> subst h <;> decide
  · have hm := lane_mod_mul hw hx hy hb
    by_cases hz : is_zero R cmp = true
    · rw [if_pos hz, hm]
    · rw [if_neg hz, lane_add hw, hone, if_neg hb, Nat.add_zero, hm]
      exact Nat.mod_eq_of_lt (by have := Nat.mod_lt (lane w x i * lane w y i) (show 0 < P w by have := hw.P_pos; omega); omega)

end Simd
end Quad
