import Verif.Lemmas.NF4
import Verif.Lemmas.Fft2nPrime

/-!
The operations of the packed field on every lane.
-/

namespace Quad
open Spec

theorem prime65537 : Nat.Prime 65537 := by norm_num

instance fact65537 : Fact (Nat.Prime 65537) := ⟨prime65537⟩

namespace NF4

theorem word_packed {n : Nat} {f : Nat → Nat} (h : ∀ l, l < n → f l < 65537) :
    Packed n (word 32 n f) ∧ ∀ l, l < n → lane32 (word 32 n f) l = f l := by
  have h' : ∀ l, l < n → f l < 2 ^ 32 := fun l hl => lt_trans (h l hl) (by norm_num)
  have hl : ∀ l, l < n → lane32 (word 32 n f) l = f l := fun l hl => word_lane h' hl
  exact ⟨⟨word_lt h', fun l hl' => by rw [hl l hl']; exact h l hl'⟩, hl⟩

theorem word_of_packed {n a : Nat} (h : Packed n a) : word 32 n (lane32 a) = a := word_lanes h.lt

theorem packed_lane {n a : Nat} (h : Packed n a) (l : Nat) : lane32 a l < 65537 := by
  by_cases hl : l < n
  · exact h.lane l hl
  · unfold lane32; rw [lane_oob h.lt (by omega)]; norm_num

theorem packed_zero {n a l : Nat} (h : Packed n a) (hl : n ≤ l) : lane32 a l = 0 := lane_oob h.lt hl

/-- words are equal when their lanes are -/
theorem packed_ext {n a c : Nat} (ha : Packed n a) (hc : Packed n c) (h : ∀ l, l < n → lane32 a l = lane32 c l) : a = c := by
  rw [← word_of_packed ha, ← word_of_packed hc]; exact word_congr h

theorem packed0 (n : Nat) : Packed n 0 := ⟨by positivity, fun l _ => by simp [lane32]⟩

end NF4

namespace Spec.IsNf4
open NF4
variable {N : NF4} {b n : Nat} {simd : Option (Nat × (Nat → Nat))}

theorem all (H : IsNf4 N b n simd) : N.b = b ∧ N.n = n ∧ N.simd = simd ∧ RingModN.IsPrimeField N.sub_field 65537 ∧
    N.sub_field.ring = RingModN.mk 32 64 true 65537 := by
  have hF : (RingModN.mk 32 64 true 65537).Fits := ⟨by norm_num, by norm_num, by norm_num⟩
  obtain ⟨O, e, hr, _⟩ := RingModN.init_spec hF prime65537 rfl (by norm_num)
  have hm := H.built
  unfold NF4.mk' at hm
  have := H.build.fit
  rw [e, ok_bind, show decide (n ≤ b / 8 / 4) = true by simp; omega] at hm
  simp only [cassert, if_true, ok_bind] at hm
  have hm := Except.ok.inj hm
  subst hm
  exact ⟨rfl, rfl, rfl, ⟨prime65537, by rw [hr], by rw [hr]; exact hF, by rw [hr], by rw [hr]; decide, by rw [hr]; exact e⟩, hr⟩

theorem nb (H : IsNf4 N b n simd) : N.b = b := H.all.1
theorem nn (H : IsNf4 N b n simd) : N.n = n := H.all.2.1
theorem ns (H : IsNf4 N b n simd) : N.simd = simd := H.all.2.2.1
theorem sub_field (H : IsNf4 N b n simd) : RingModN.IsPrimeField N.sub_field 65537 := H.all.2.2.2.1
theorem ring (H : IsNf4 N b n simd) : N.sub_field.ring = RingModN.mk 32 64 true 65537 := H.all.2.2.2.2

theorem le4 (H : IsNf4 N b n simd) (h : simd.isSome) : n ≤ 4 := by
  obtain ⟨⟨R, hi⟩, e⟩ := Option.isSome_iff_exists.mp h
  have := H.build.vec R hi e
  have := H.build.fit
  omega

theorem expand32_eq (H : IsNf4 N b n simd) {f : Nat → Nat} (h : ∀ l, l < n → f l < 2 ^ 32) :
    N.expand32 ((List.range n).map f) = word 32 n f := by
  unfold NF4.expand32
  rw [H.ns, H.nb]
  split
  · exact expand32V_eq (H.le4 (by assumption)) h
  · exact expand32S_eq H.build.fit h

theorem expand16_eq (H : IsNf4 N b n simd) {f : Nat → Nat} (h : ∀ l, l < n → f l < 2 ^ 16) :
    N.expand16 ((List.range n).map f) = word 16 n f := by
  unfold NF4.expand16
  rw [H.ns, H.nb]
  split
  · exact expand16V_eq (H.le4 (by assumption)) h
  · exact expand16S_eq (by have := H.build.fit; omega) h

theorem replicate_eq (H : IsNf4 N b n simd) {a : Nat} (h : a < 2 ^ 32) : N.replicate a = word 32 n (fun _ => a) := by
  unfold NF4.replicate
  have hp := H.build.pos
  have := replicateLoop_eq (b := b) h H.build.fit (n - 1) 1 (by omega) (by omega)
  rw [H.nb, H.nn, ← this]
  simp [word, List.range_succ]

theorem replicate_lane (H : IsNf4 N b n simd) {a : Nat} (h : a < 2 ^ 32) {l : Nat} (hl : l < n) : lane32 (N.replicate a) l = a := by
  rw [H.replicate_eq h]; exact word_lane (fun _ _ => h) hl

/-- a binary operation of the class on packed words, in both builds -/
theorem bin (H : IsNf4 N b n simd) {f g : Nat → Nat → Nat} {v : Nat → (Nat → Nat) → Nat → Nat → Simd.Reg} {op : Nat → Nat → Nat} {a c : Nat}
    (ha : Packed n a) (hc : Packed n c)
    (hop : op a c = match N.simd with
      | some (R, hi) => storeLow (v R hi a c)
      | none => N.expand32 (lanes2 f N.n a c))
    (hf : ∀ x y, x < 65537 → y < 65537 → f x y = g x y) (hg : ∀ x y, x < 65537 → y < 65537 → g x y < 65537) (h0 : g 0 0 = 0)
    (hv : ∀ R hi l, (R = 16 ∨ R = 32) → l < 4 → Simd.lane 4 (v R hi a c) l = g (lane32 a l) (lane32 c l)) :
    op a c = word 32 n (fun l => g (lane32 a l) (lane32 c l)) := by
  have hfl : ∀ l, l < n → f (lane32 a l) (lane32 c l) = g (lane32 a l) (lane32 c l) := fun l hl => hf _ _ (ha.lane l hl) (hc.lane l hl)
  have hgl : ∀ l, l < n → g (lane32 a l) (lane32 c l) < 2 ^ 32 := fun l hl => lt_trans (hg _ _ (ha.lane l hl) (hc.lane l hl)) (by norm_num)
  rw [hop, H.ns]
  cases hs : simd with
  | none =>
    simp only
    rw [lanes2_eq, H.nn, H.expand32_eq (fun l hl => by rw [hfl l hl]; exact hgl l hl)]
    exact word_congr hfl
  | some s =>
    obtain ⟨R, hi⟩ := s
    have h4 : n ≤ 4 := H.le4 (by rw [hs]; rfl)
    simp only
    rw [storeLow_eq, word_congr (g := fun l => g (lane32 a l) (lane32 c l)) (fun l hl => hv R hi l (H.build.vec R hi hs).2 hl)]
    exact word_shrink h4 (fun l h1 _ => by rw [packed_zero ha h1, packed_zero hc h1, h0])

theorem add_eq (H : IsNf4 N b n simd) {a c : Nat} (ha : Packed n a) (hc : Packed n c) :
    N.add a c = word 32 n (fun l => (lane32 a l + lane32 c l) % 65537) := by
  refine H.bin (op := N.add) (f := add1) (g := fun x y => (x + y) % 65537) (v := fun _ hi a c => Simd.mod_add 4 (loadWord hi a) (loadWord hi c))
    ha hc ?_ ?_ (fun x y _ _ => Nat.mod_lt _ (by norm_num)) (by norm_num) ?_
  · unfold NF4.add addV
    rcases N.simd with _ | ⟨R, hi⟩ <;> simp only
  · intro x y hx hy
    unfold add1
    rw [wrap_lt (by norm_num; omega)]
  · intro R hi l _ hl
    have h1 := packed_lane ha l
    have h2 := packed_lane hc l
    rw [Simd.lane_mod_add (Or.inr rfl), lane_loadWord hi a l hl, lane_loadWord hi c l hl]
    · rfl
    · rw [lane_loadWord hi a l hl]; exact h1
    · rw [lane_loadWord hi c l hl]; exact h2

theorem sub_eq (H : IsNf4 N b n simd) {a c : Nat} (ha : Packed n a) (hc : Packed n c) :
    N.sub a c = word 32 n (fun l => (lane32 a l + (65537 - lane32 c l)) % 65537) := by
  refine H.bin (op := N.sub) (f := sub1) (g := fun x y => (x + (65537 - y)) % 65537) (v := fun _ hi a c => Simd.mod_sub 4 (loadWord hi a) (loadWord hi c))
    ha hc ?_ ?_ (fun x y _ _ => Nat.mod_lt _ (by norm_num)) (by norm_num) ?_
  · unfold NF4.sub subV
    rcases N.simd with _ | ⟨R, hi⟩ <;> simp only
  · intro x y hx hy
    unfold sub1 wrap
    split <;> omega
  · intro R hi l _ hl
    have h1 := packed_lane ha l
    have h2 := packed_lane hc l
    rw [Simd.lane_mod_sub (Or.inr rfl), lane_loadWord hi a l hl, lane_loadWord hi c l hl]
    · rfl
    · rw [lane_loadWord hi a l hl]; exact h1
    · rw [lane_loadWord hi c l hl]; exact h2

theorem mul_eq (H : IsNf4 N b n simd) {a c : Nat} (ha : Packed n a) (hc : Packed n c) :
    N.mul a c = word 32 n (fun l => lane32 a l * lane32 c l % 65537) := by
  refine H.bin (op := N.mul) (f := mul1) (g := fun x y => x * y % 65537) (v := fun R hi a c => Simd.mod_mul_safe R 4 (loadWord hi a) (loadWord hi c))
    ha hc ?_ ?_ (fun x y _ _ => Nat.mod_lt _ (by norm_num)) (by norm_num) ?_
  · unfold NF4.mul mulV
    rcases N.simd with _ | ⟨R, hi⟩ <;> simp only
  · intro x y hx hy
    unfold mul1
    split
    · rename_i h; rw [h.1, h.2]
    · rw [wrap_lt]
      calc x * y ≤ 65536 * 65536 := Nat.mul_le_mul (by omega) (by omega)
        _ < 2 ^ 64 := by norm_num
  · intro R hi l hR hl
    have h1 := packed_lane ha l
    have h2 := packed_lane hc l
    rw [Simd.lane_mod_mul_safe (Or.inr rfl) (by omega), lane_loadWord hi a l hl, lane_loadWord hi c l hl]
    · rfl
    · rw [lane_loadWord hi a l hl]; exact h1
    · rw [lane_loadWord hi c l hl]; exact h2

theorem neg_eq (H : IsNf4 N b n simd) {a : Nat} (ha : Packed n a) :
    N.neg a = word 32 n (fun l => (65537 - lane32 a l) % 65537) := by
  unfold NF4.neg
  rw [H.sub_eq (packed0 n) ha]
  exact word_congr (fun l _ => by simp [lane32])

theorem inv1 (H : IsNf4 N b n simd) {x : Nat} (hx : x < 65537) :
    N.sub_field.ring.inv x = .ok ((x : ZMod 65537)⁻¹).val := by
  by_cases h0 : x = 0
  · subst h0; rw [H.ring]; simp only [Nat.cast_zero, inv_zero, ZMod.val_zero]; decide +kernel
  · obtain ⟨r, e, h1, h2⟩ := H.sub_field.sim.inv (a := x) hx (RingModN.cast_ne_zero h0 hx)
    have e' : N.sub_field.ring.inv x = .ok r := e
    rw [e']
    have : (r : ZMod 65537) = (x : ZMod 65537)⁻¹ := h2
    rw [← this, ZMod.val_natCast, Nat.mod_eq_of_lt h1]

theorem inv_eq (H : IsNf4 N b n simd) {a : Nat} (ha : Packed n a) :
    N.inv a = .ok (word 32 n (fun l => ((lane32 a l : ZMod 65537)⁻¹).val)) := by
  unfold NF4.inv
  rw [H.nn, lanesR_ok (g := fun x _ => ((x : ZMod 65537)⁻¹).val) (fun l hl => H.inv1 (ha.lane l hl)), ok_bind,
    H.expand32_eq (fun l _ => lt_trans (ZMod.val_lt _) (by norm_num))]
  rfl

theorem div_eq (H : IsNf4 N b n simd) {a c : Nat} (ha : Packed n a) (hc : Packed n c) :
    N.div a c = .ok (word 32 n (fun l => ((lane32 a l : ZMod 65537) / (lane32 c l : ZMod 65537)).val)) := by
  unfold NF4.div
  rw [H.nn, lanesR_ok (g := fun x y => ((x : ZMod 65537) / (y : ZMod 65537)).val) (fun l hl => ?_), ok_bind,
    H.expand32_eq (fun l _ => lt_trans (ZMod.val_lt _) (by norm_num))]
  · rfl
  · unfold RingModN.div
    have hc' := H.sub_field.card
    rw [H.inv1 (hc.lane l hl), ok_bind, RingModN.mul_eq H.sub_field.fits (by rw [hc']; exact ha.lane l hl) (by rw [hc']; exact ZMod.val_lt _), hc',
      div_eq_mul_inv, ZMod.val_mul, ZMod.val_natCast, Nat.mod_eq_of_lt (ha.lane l hl)]
    rfl

theorem exp_eq (H : IsNf4 N b n simd) {a : Nat} (ha : Packed n a) (c : Nat) :
    N.exp a c = word 32 n (fun l => lane32 a l ^ lane32 c l % 65537) := by
  unfold NF4.exp
  have hc' := H.sub_field.card
  have h : ∀ l, l < n → N.sub_field.ring.exp (lane32 a l) (lane32 c l) = lane32 a l ^ lane32 c l % 65537 := by
    intro l hl
    rw [RingModN.exp_eq H.sub_field.fits (by rw [hc']; exact ha.lane l hl), hc']
  rw [lanes2_eq, H.nn, H.expand32_eq (fun l hl => by rw [h l hl]; exact lt_trans (Nat.mod_lt _ (by norm_num)) (by norm_num))]
  exact word_congr h

/-! ### packing -/

theorem packLanes_eq (n a : Nat) : packLanes n a = (List.range n).map (fun l => lane16 a l) := by
  induction n generalizing a with
  | zero => rfl
  | succ n ih =>
    rw [packLanes, ih, List.range_succ_eq_map, List.map_cons, List.map_map]
    congr 1
    · rw [show (0xFFFF : Nat) = 2 ^ 16 - 1 by rfl, Nat.and_two_pow_sub_one_eq_mod]; simp [lane16]
    · exact List.map_congr_left (fun l _ => lane_shift 16 a l)

theorem packFlagLanes_eq (n a flag : Nat) :
    packFlagLanes n a flag = (List.range n).map (fun l => if flag.testBit l then 65536 else lane16 a l) := by
  induction n generalizing a flag with
  | zero => rfl
  | succ n ih =>
    rw [packFlagLanes, ih, List.range_succ_eq_map, List.map_cons, List.map_map]
    congr 1
    · rw [show (0xFFFF : Nat) = 2 ^ 16 - 1 by rfl, Nat.and_two_pow_sub_one_eq_mod, Nat.and_one_is_mod, Nat.testBit_zero]
      simp only [lane16, Nat.mul_zero, pow_zero, Nat.div_one, decide_eq_true_eq]
      congr 1; simp
    · refine List.map_congr_left (fun l _ => ?_)
      simp only [Function.comp_apply, Nat.testBit_shiftRight, Nat.add_comm 1 l, Nat.succ_eq_add_one]
      congr 1
      exact lane_shift 16 a l

theorem lane16_lt (a l : Nat) : lane16 a l < 2 ^ 16 := Nat.mod_lt _ (by norm_num)

theorem pack_eq (H : IsNf4 N b n simd) {a : Nat} (ha : a < 2 ^ (16 * n)) : N.pack a = word 32 n (fun l => lane16 a l) := by
  have hlt : ∀ l, lane16 a l < 2 ^ 32 := fun l => lt_trans (lane16_lt a l) (by norm_num)
  unfold NF4.pack
  split
  · rename_i hs
    rw [H.ns] at hs
    unfold packV
    rw [set_epi32_eq (f := fun l => extract16 a l) (fun l hl => by rw [extract16_eq a l (by omega)]; exact hlt l),
      word_congr (g := fun l => lane16 a l) (fun l hl => extract16_eq a l (by omega))]
    exact word_shrink (H.le4 hs) (fun l h1 _ => lane_oob ha h1)
  · rw [packLanes_eq, H.nn, H.expand32_eq (fun l _ => hlt l)]

theorem packFlag_eq (H : IsNf4 N b n simd) {a flag : Nat} (ha : a < 2 ^ (16 * n)) (hf : flag < 2 ^ n) :
    N.packFlag a flag = word 32 n (fun l => if flag.testBit l then 65536 else lane16 a l) := by
  have hlt : ∀ l, (if flag.testBit l then 65536 else lane16 a l) < 2 ^ 32 := by
    intro l
    split
    · norm_num
    · exact lt_trans (lane16_lt a l) (by norm_num)
  unfold NF4.packFlag
  split
  · rename_i hs
    rw [H.ns] at hs
    have hb : ∀ f : Nat, (f &&& 1 ≠ 0) ↔ f.testBit 0 = true := by
      intro f; rw [Nat.and_one_is_mod, Nat.testBit_zero]; simp
    unfold packFlagV
    simp only [hb, Nat.testBit_shiftRight, extract16_eq a 0 (by omega), extract16_eq a 1 (by omega), extract16_eq a 2 (by omega),
      extract16_eq a 3 (by omega), ← Nat.shiftRight_add, Nat.reduceAdd]
    rw [set_epi32_eq (f := fun l => if flag.testBit l then 65536 else lane16 a l) (fun l _ => hlt l)]
    refine word_shrink (H.le4 hs) (fun l h1 _ => ?_)
    rw [Nat.testBit_lt_two_pow (lt_of_lt_of_le hf (Nat.pow_le_pow_right (by norm_num) h1))]
    exact lane_oob ha h1
  · rw [packFlagLanes_eq, H.nn, H.expand32_eq (fun l _ => hlt l)]

/-- the flag of `n` lanes: bit `l` is set when lane `l` holds 65536 -/
def flagOf (n a : Nat) : Nat := word 1 n (fun l => if lane32 a l = 65536 then 1 else 0)

theorem unpackLanes_eq (n i a flag : Nat) (hf : flag < 2 ^ i) :
    unpackLanes n i a flag = ((List.range n).map (fun l => if lane32 a l = 65536 then 0 else lane32 a l % 2 ^ 16),
      flag + 2 ^ i * flagOf n a) := by
  induction n generalizing i a flag with
  | zero => simp [unpackLanes, flagOf, word]
  | succ n ih =>
    have hfl : (if narrow32 a = 65536 then flag ||| (1 <<< i) else flag) = flag + 2 ^ i * (if lane32 a 0 = 65536 then 1 else 0) := by
      rw [lane32_zero]
      split
      · rw [Nat.or_comm, or_shift hf]
      · simp
    have hlt : flag + 2 ^ i * (if lane32 a 0 = 65536 then 1 else 0) < 2 ^ (i + 1) := by
      rw [pow_succ]; split <;> omega
    rw [unpackLanes, hfl, ih _ _ _ hlt, List.range_succ_eq_map, List.map_cons, List.map_map, lane32_zero]
    simp only [lane32_next]
    congr 1
    unfold flagOf
    rw [word_succ, lane32_zero]
    simp only [lane32_next, pow_succ]
    ring

theorem flagOf_lt (n a : Nat) : flagOf n a < 2 ^ n := by
  have := word_lt (s := 1) (n := n) (f := fun l => if lane32 a l = 65536 then 1 else 0) (fun l _ => by split <;> norm_num)
  rwa [Nat.one_mul] at this

theorem flagOf_bit {n a l : Nat} (hl : l < n) : (flagOf n a).testBit l = decide (lane32 a l = 65536) := by
  have := word_lane (s := 1) (n := n) (f := fun l => if lane32 a l = 65536 then 1 else 0) (fun l _ => by split <;> norm_num) hl
  rw [Nat.testBit_eq_decide_div_mod_eq]
  rw [Nat.one_mul, pow_one] at this
  unfold flagOf
  rw [this]
  by_cases h : lane32 a l = 65536 <;> simp [h]

theorem unpack_eq (H : IsNf4 N b n simd) {a : Nat} (ha : Packed n a) :
    N.unpack a = (word 16 n (fun l => if lane32 a l = 65536 then 0 else lane32 a l), flagOf n a) := by
  have hmod : ∀ l, (if lane32 a l = 65536 then 0 else lane32 a l % 2 ^ 16) = if lane32 a l = 65536 then 0 else lane32 a l := by
    intro l
    have := packed_lane ha l
    split
    · rfl
    · rw [Nat.mod_eq_of_lt (by omega)]
  have hlt : ∀ l, (if lane32 a l = 65536 then 0 else lane32 a l) < 2 ^ 16 := by
    intro l
    have := packed_lane ha l
    split <;> omega
  unfold NF4.unpack
  split
  · rename_i hs
    rw [H.ns] at hs
    have h4 := H.le4 hs
    have hev : ∀ l, l < 4 → extract16 a (2 * l) = if lane32 a l = 65536 then 0 else lane32 a l := by
      intro l hl
      rw [extract16_eq a _ (by omega), ← hmod l]
      unfold lane16 lane32
      rw [show 16 * (2 * l) = 32 * l by ring]
      split <;> omega
    have hod : ∀ l, l < 4 → extract16 a (2 * l + 1) = if lane32 a l = 65536 then 1 else 0 := by
      intro l hl
      have h1 := packed_lane ha l
      rw [extract16_eq a _ (by omega)]
      unfold lane32 at h1 ⊢
      unfold lane16
      rw [show 16 * (2 * l + 1) = 32 * l + 16 by ring, pow_add, ← Nat.div_div_eq_div_mul]
      split <;> omega
    unfold unpackV
    simp only
    rw [show extract16 a 6 = _ from hev 3 (by omega), show extract16 a 4 = _ from hev 2 (by omega), show extract16 a 2 = _ from hev 1 (by omega),
      show extract16 a 0 = _ from hev 0 (by omega), show extract16 a 1 = _ from hod 0 (by omega), show extract16 a 3 = _ from hod 1 (by omega),
      show extract16 a 5 = _ from hod 2 (by omega), show extract16 a 7 = _ from hod 3 (by omega)]
    refine Prod.ext ?_ ?_ <;> simp only
    · rw [set_epi16_eq (f := fun l => if lane32 a l = 65536 then 0 else lane32 a l) (fun l _ => hlt l)]
      exact word_shrink h4 (fun l h1 _ => by rw [packed_zero ha h1, if_neg (by norm_num)])
    · unfold flagOf
      rw [← word_shrink (s := 1) h4 (fun l h1 _ => by rw [packed_zero ha h1, if_neg (by norm_num)])]
      simp only [word, List.range_succ, List.range_zero, List.nil_append, List.cons_append, List.map_cons, List.map_nil]
      by_cases h0 : lane32 a 0 = 65536 <;> by_cases h1 : lane32 a 1 = 65536 <;> by_cases h2 : lane32 a 2 = 65536 <;>
        by_cases h3 : lane32 a 3 = 65536 <;> simp only [h0, h1, h2, h3, if_true, if_false] <;> decide
  · have := unpackLanes_eq n 0 a 0 (by norm_num)
    rw [H.nn, this]
    simp only
    rw [H.expand16_eq (fun l _ => by rw [hmod]; exact hlt l), word_congr (fun l _ => hmod l)]
    simp

end Spec.IsNf4
end Quad
