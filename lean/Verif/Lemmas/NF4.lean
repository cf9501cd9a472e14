import Verif.Spec.Nf4
import Verif.Lemmas.Simd
import Verif.Lemmas.RingRoot
import Verif.Lemmas.CodeLen
import Mathlib.Data.Nat.Digits.Lemmas

/-!
Lanes of packed words.
-/

namespace Quad
open Spec

namespace NF4

/-! ### words as lists of lanes -/

/-- the word with lanes `f 0, ..., f (n-1)` of `s` bits -/
def word (s n : Nat) (f : Nat → Nat) : Nat := Nat.ofDigits (2 ^ s) ((List.range n).map f)

theorem word_succ (s n : Nat) (f : Nat → Nat) : word s (n + 1) f = f 0 + 2 ^ s * word s n (fun l => f (l + 1)) := by
  unfold word
  rw [List.range_succ_eq_map, List.map_cons, List.map_map, Nat.ofDigits_cons]
  rfl

theorem word_congr {s n : Nat} {f g : Nat → Nat} (h : ∀ l, l < n → f l = g l) : word s n f = word s n g := by
  unfold word
  rw [List.map_congr_left (fun l hl => h l (List.mem_range.mp hl))]

theorem word_lt {s n : Nat} {f : Nat → Nat} (h : ∀ l, l < n → f l < 2 ^ s) : word s n f < 2 ^ (s * n) := by
  induction n generalizing f with
  | zero => simp [word]
  | succ n ih =>
    rw [word_succ]
    have h0 := h 0 (by omega)
    have := ih (f := fun l => f (l + 1)) (fun l hl => h (l + 1) (by omega))
    have e : 2 ^ (s * (n + 1)) = 2 ^ s * 2 ^ (s * n) := by rw [← pow_add]; congr 1; ring
    rw [e]
    nlinarith [Nat.mul_le_mul_left (2 ^ s) (Nat.succ_le_of_lt this)]

theorem word_lane {s n : Nat} {f : Nat → Nat} (h : ∀ l, l < n → f l < 2 ^ s) {l : Nat} (hl : l < n) :
    word s n f / 2 ^ (s * l) % 2 ^ s = f l := by
  induction n generalizing f l with
  | zero => omega
  | succ n ih =>
    rw [word_succ]
    have h0 := h 0 (by omega)
    cases l with
    | zero => rw [Nat.mul_zero, pow_zero, Nat.div_one, Nat.add_mul_mod_self_left, Nat.mod_eq_of_lt h0]
    | succ l =>
      rw [show s * (l + 1) = s + s * l by ring, pow_add, ← Nat.div_div_eq_div_mul, Nat.add_mul_div_left _ _ (by positivity),
        Nat.div_eq_of_lt h0, Nat.zero_add]
      exact ih (fun l hl => h (l + 1) (by omega)) (by omega)

/-- a word is given by its lanes -/
theorem word_lanes {s n a : Nat} (h : a < 2 ^ (s * n)) : word s n (fun l => a / 2 ^ (s * l) % 2 ^ s) = a := by
  induction n generalizing a with
  | zero => simp at h; subst h; rfl
  | succ n ih =>
    rw [word_succ]
    have e : 2 ^ (s * (n + 1)) = 2 ^ s * 2 ^ (s * n) := by rw [← pow_add]; congr 1; ring
    have := ih (a := a / 2 ^ s) (Nat.div_lt_of_lt_mul (by rw [← e]; exact h))
    rw [word_congr (g := fun l => a / 2 ^ s / 2 ^ (s * l) % 2 ^ s) (fun l _ => by
      simp only [Nat.div_div_eq_div_mul]; rw [← pow_add]; congr 3; ring), this]
    simp only [Nat.mul_zero, pow_zero, Nat.div_one]
    exact Nat.mod_add_div a (2 ^ s)

/-- lanes beyond `n` are zero -/
theorem lane_oob {s n a l : Nat} (h : a < 2 ^ (s * n)) (hl : n ≤ l) : a / 2 ^ (s * l) % 2 ^ s = 0 := by
  rw [Nat.div_eq_of_lt (lt_of_lt_of_le h (Nat.pow_le_pow_right (by decide) (Nat.mul_le_mul_left s hl))), Nat.zero_mod]

theorem word_shrink {s n m : Nat} {f : Nat → Nat} (hnm : n ≤ m) (h : ∀ l, n ≤ l → l < m → f l = 0) : word s m f = word s n f := by
  induction m generalizing n f with
  | zero => rw [show n = 0 by omega]
  | succ m ih =>
    cases n with
    | zero =>
      rw [word_succ, h 0 (by omega) (by omega), ih (n := 0) (by omega) (fun l _ hl => h (l + 1) (by omega) (by omega))]
      simp [word]
    | succ n =>
      rw [word_succ, word_succ, ih (n := n) (by omega) (fun l h1 hl => h (l + 1) (by omega) (by omega))]

theorem lane_shift (s a l : Nat) : (a >>> s) / 2 ^ (s * l) % 2 ^ s = a / 2 ^ (s * (l + 1)) % 2 ^ s := by
  rw [Nat.shiftRight_eq_div_pow, Nat.div_div_eq_div_mul, ← pow_add]
  congr 3; ring

theorem lane32_next (a l : Nat) : lane32 (next a) l = lane32 a (l + 1) := by
  unfold lane32 next
  rw [← Nat.shiftRight_add]
  exact lane_shift 32 a l

theorem lane32_zero (a : Nat) : lane32 a 0 = narrow32 a := by simp [lane32, narrow32]

theorem lanes1_eq (f : Nat → Nat) (n a : Nat) : lanes1 f n a = (List.range n).map (fun l => f (lane32 a l)) := by
  induction n generalizing a with
  | zero => rfl
  | succ n ih =>
    rw [lanes1, ih, List.range_succ_eq_map, List.map_cons, List.map_map, lane32_zero]
    simp only [lane32_next]
    rfl

theorem lanes2_eq (f : Nat → Nat → Nat) (n a c : Nat) :
    lanes2 f n a c = (List.range n).map (fun l => f (lane32 a l) (lane32 c l)) := by
  induction n generalizing a c with
  | zero => rfl
  | succ n ih =>
    rw [lanes2, ih, List.range_succ_eq_map, List.map_cons, List.map_map, lane32_zero, lane32_zero]
    simp only [lane32_next]
    rfl

theorem lanesR_ok {f : Nat → Nat → Res Nat} {g : Nat → Nat → Nat} {n a c : Nat}
    (h : ∀ l, l < n → f (lane32 a l) (lane32 c l) = .ok (g (lane32 a l) (lane32 c l))) :
    lanesR f n a c = .ok ((List.range n).map (fun l => g (lane32 a l) (lane32 c l))) := by
  induction n generalizing a c with
  | zero => rfl
  | succ n ih =>
    have h0 := h 0 (by omega)
    rw [lane32_zero, lane32_zero] at h0
    rw [lanesR, h0, ok_bind, ih (fun l hl => by simp only [lane32_next]; exact h (l + 1) (by omega)), ok_bind,
      List.range_succ_eq_map, List.map_cons, List.map_map, lane32_zero, lane32_zero]
    simp only [lane32_next]
    rfl

theorem lane32_lt (a l : Nat) : lane32 a l < 2 ^ 32 := Nat.mod_lt _ (by decide)

/-! ### `expand32`, `expand16` and `replicate` -/

theorem or_shift {s c x : Nat} (h : x < 2 ^ s) : (c <<< s) ||| x = x + 2 ^ s * c := by
  rw [← Nat.shiftLeft_add_eq_or_of_lt h, Nat.shiftLeft_eq]; ring

theorem wrap_lt {b x : Nat} (h : x < 2 ^ b) : wrap b x = x := Nat.mod_eq_of_lt h

theorem pow_split (s n : Nat) : 2 ^ (s * (n + 1)) = 2 ^ s * 2 ^ (s * n) := by rw [← pow_add]; congr 1; ring

theorem expand16S_eq {b n : Nat} {f : Nat → Nat} (hb : 16 * n ≤ b) (h : ∀ l, l < n → f l < 2 ^ 16) :
    expand16S b ((List.range n).map f) = word 16 n f := by
  induction n generalizing f with
  | zero => rfl
  | succ n ih =>
    cases n with
    | zero => simp [expand16S, word, List.range_succ]
    | succ n =>
      have e : (List.range (n + 1 + 1)).map f = f 0 :: (List.range (n + 1)).map (fun l => f (l + 1)) := by
        rw [List.range_succ_eq_map, List.map_cons, List.map_map]; rfl
      have e' : (List.range (n + 1)).map (fun l => f (l + 1)) = f 1 :: (List.range n).map (fun l => f (l + 2)) := by
        rw [List.range_succ_eq_map, List.map_cons, List.map_map]; rfl
      have hi := ih (f := fun l => f (l + 1)) (by omega) (fun l hl => h (l + 1) (by omega))
      have hl := word_lt (s := 16) (n := n + 1) (f := fun l => f (l + 1)) (fun l hl => h (l + 1) (by omega))
      have hw : 2 ^ 16 * 2 ^ (16 * (n + 1)) ≤ 2 ^ b := by
        rw [← pow_split]; exact Nat.pow_le_pow_right (by decide) hb
      have hlt : word 16 (n + 1) (fun l => f (l + 1)) <<< 16 < 2 ^ b := by
        rw [Nat.shiftLeft_eq]
        calc _ < 2 ^ (16 * (n + 1)) * 2 ^ 16 := Nat.mul_lt_mul_of_pos_right hl (by decide)
          _ ≤ 2 ^ b := by rw [mul_comm]; exact hw
      rw [word_succ, ← or_shift (h 0 (by omega)), ← wrap_lt hlt, ← hi, e, e']
      rfl

theorem shift32 {b c : Nat} (h : c * 2 ^ 32 < 2 ^ b) : wrap b (wrap b (c <<< 16) <<< 16) = c <<< 32 := by
  have h16 : c <<< 16 < 2 ^ b := by
    rw [Nat.shiftLeft_eq]
    exact lt_of_le_of_lt (Nat.mul_le_mul_left c (Nat.pow_le_pow_right (by decide) (by decide))) h
  rw [wrap_lt h16, ← Nat.shiftLeft_add]
  exact wrap_lt (by rw [Nat.shiftLeft_eq]; exact h)

theorem expand32S_eq {b n : Nat} {f : Nat → Nat} (hb : 32 * n ≤ b) (h : ∀ l, l < n → f l < 2 ^ 32) :
    expand32S b ((List.range n).map f) = word 32 n f := by
  induction n generalizing f with
  | zero => rfl
  | succ n ih =>
    cases n with
    | zero => simp [expand32S, word, List.range_succ]
    | succ n =>
      have e : (List.range (n + 1 + 1)).map f = f 0 :: (List.range (n + 1)).map (fun l => f (l + 1)) := by
        rw [List.range_succ_eq_map, List.map_cons, List.map_map]; rfl
      have e' : (List.range (n + 1)).map (fun l => f (l + 1)) = f 1 :: (List.range n).map (fun l => f (l + 2)) := by
        rw [List.range_succ_eq_map, List.map_cons, List.map_map]; rfl
      have hi := ih (f := fun l => f (l + 1)) (by omega) (fun l hl => h (l + 1) (by omega))
      have hl := word_lt (s := 32) (n := n + 1) (f := fun l => f (l + 1)) (fun l hl => h (l + 1) (by omega))
      have hw : 2 ^ 32 * 2 ^ (32 * (n + 1)) ≤ 2 ^ b := by
        rw [← pow_split]; exact Nat.pow_le_pow_right (by decide) hb
      have h2 : word 32 (n + 1) (fun l => f (l + 1)) * 2 ^ 32 < 2 ^ b := by
        calc _ < 2 ^ (32 * (n + 1)) * 2 ^ 32 := Nat.mul_lt_mul_of_pos_right hl (by decide)
          _ ≤ 2 ^ b := by rw [mul_comm]; exact hw
      rw [word_succ, ← or_shift (h 0 (by omega)), ← shift32 h2, ← hi, e, e']
      rfl

theorem replicateLoop_eq {b a n : Nat} (ha : a < 2 ^ 32) (hb : 32 * n ≤ b) : ∀ k j, j + k = n → 0 < j →
    replicateLoop b a k (word 32 j (fun _ => a)) = word 32 n (fun _ => a) := by
  intro k
  induction k with
  | zero => intro j h _; rw [show j = n by omega]; rfl
  | succ k ih =>
    intro j h hj
    rw [replicateLoop, ← ih (j + 1) (by omega) (by omega)]
    congr 1
    have hl := word_lt (s := 32) (n := j) (f := fun _ => a) (fun _ _ => ha)
    have hw : 2 ^ 32 * 2 ^ (32 * j) ≤ 2 ^ b := by
      rw [← pow_split]; exact Nat.pow_le_pow_right (by decide) (by omega)
    set c := word 32 j (fun _ => a) with hc
    have h2 : c * 2 ^ 32 < 2 ^ b := by
      calc _ < 2 ^ (32 * j) * 2 ^ 32 := Nat.mul_lt_mul_of_pos_right hl (by decide)
        _ ≤ 2 ^ b := by rw [mul_comm]; exact hw
    rw [shift32 h2, or_shift ha, word_succ]

/-! ### registers -/

open Simd in
theorem storeLow_eq (x : Reg) : storeLow x = word 32 4 (fun l => lane 4 x l) := by
  simp only [storeLow, word, lane, List.range_succ, List.range_zero, List.nil_append, List.cons_append, List.map_cons, List.map_nil,
    leVal, Nat.ofDigits_cons, Nat.ofDigits_nil, List.map_append]
  ring_nf

open Simd in
theorem lane_loadWord (hi : Nat → Nat) (a l : Nat) (hl : l < 4) : lane 4 (loadWord hi a) l = lane32 a l := by
  have : (List.range 4).map (fun t => loadWord hi a (l * 4 + t)) = leBytes 4 (lane32 a l) := by
    rw [leBytes_range]
    apply List.map_congr_left
    intro t ht
    have ht := List.mem_range.mp ht
    unfold loadWord lane32
    rw [if_pos (by omega), show l * 4 + t = 4 * l + t by ring, pow_add, ← Nat.div_div_eq_div_mul,
      show (256 : Nat) ^ (4 * l) = 2 ^ (32 * l) by rw [show (256 : Nat) = 2 ^ 8 by rfl, ← pow_mul]; congr 1; ring]
    generalize a / 2 ^ (32 * l) = v
    rcases (by omega : t = 0 ∨ t = 1 ∨ t = 2 ∨ t = 3) with h | h | h | h <;> subst h <;> omega
  unfold lane
  rw [this, leVal_leBytes]
  exact lane32_lt a l

open Simd in
theorem extract16_eq (a i : Nat) (hi : i < 8) : extract16 a i = lane16 a i := by
  have : (List.range 2).map (fun t => loadWord (fun _ => 0) a (i * 2 + t)) = leBytes 2 (lane16 a i) := by
    rw [leBytes_range]
    apply List.map_congr_left
    intro t ht
    have ht := List.mem_range.mp ht
    unfold loadWord lane16
    rw [if_pos (by omega), show i * 2 + t = 2 * i + t by ring, pow_add, ← Nat.div_div_eq_div_mul,
      show (256 : Nat) ^ (2 * i) = 2 ^ (16 * i) by rw [show (256 : Nat) = 2 ^ 8 by rfl, ← pow_mul]; congr 1; ring]
    generalize a / 2 ^ (16 * i) = v
    rcases (by omega : t = 0 ∨ t = 1) with h | h <;> subst h <;> omega
  unfold extract16 lane
  rw [this, leVal_leBytes]
  exact Nat.mod_lt _ (by decide)

open Simd in
theorem set_epi32_eq {f : Nat → Nat} (h : ∀ l, l < 4 → f l < 2 ^ 32) : set_epi32 (f 3) (f 2) (f 1) (f 0) = word 32 4 f := by
  unfold set_epi32
  rw [storeLow_eq]
  apply word_congr
  intro l hl
  rcases (by omega : l = 0 ∨ l = 1 ∨ l = 2 ∨ l = 3) with e | e | e | e <;> subst e <;>
    exact lane_ofLanes (by decide) (by simpa using h _ (by omega))

open Simd in
theorem set_epi16_eq {f : Nat → Nat} (h : ∀ l, l < 4 → f l < 2 ^ 16) : set_epi16 (f 3) (f 2) (f 1) (f 0) = word 16 4 f := by
  have e8 : ∀ x : Reg, storeLow x = word 16 8 (fun l => lane 2 x l) := by
    intro x
    simp only [storeLow, word, lane, List.range_succ, List.range_zero, List.nil_append, List.cons_append, List.map_cons, List.map_nil,
      leVal, Nat.ofDigits_cons, Nat.ofDigits_nil, List.map_append]
    ring_nf
  unfold set_epi16
  rw [e8, word_shrink (n := 4) (by omega)]
  · apply word_congr
    intro l hl
    rcases (by omega : l = 0 ∨ l = 1 ∨ l = 2 ∨ l = 3) with e | e | e | e <;> subst e <;>
      exact lane_ofLanes (by decide) (by simpa using h _ (by omega))
  · intro l h1 h2
    rw [lane_ofLanes (by decide) (by simp [show l ≠ 0 by omega, show l ≠ 1 by omega, show l ≠ 2 by omega, show l ≠ 3 by omega])]
    simp [show l ≠ 0 by omega, show l ≠ 1 by omega, show l ≠ 2 by omega, show l ≠ 3 by omega]

theorem getD_range (n : Nat) (f : Nat → Nat) (l : Nat) : ((List.range n).map f).getD l 0 = if l < n then f l else 0 := by
  rw [List.getD_eq_getElem?_getD]
  by_cases h : l < n
  · simp [h]
  · simp [h, List.getElem?_eq_none]

theorem expand32V_eq {n : Nat} {f : Nat → Nat} (hn : n ≤ 4) (h : ∀ l, l < n → f l < 2 ^ 32) :
    expand32V ((List.range n).map f) = word 32 n f := by
  have hg : ∀ l, l < 4 → (fun l => if l < n then f l else 0) l < 2 ^ 32 := by
    intro l _; simp only; split
    · exact h l (by assumption)
    · decide
  have := set_epi32_eq hg
  unfold expand32V
  simp only [getD_range]
  rw [this, word_shrink hn (fun l h1 _ => if_neg (by omega))]
  exact word_congr (fun l hl => if_pos hl)

theorem expand16V_eq {n : Nat} {f : Nat → Nat} (hn : n ≤ 4) (h : ∀ l, l < n → f l < 2 ^ 16) :
    expand16V ((List.range n).map f) = word 16 n f := by
  have hg : ∀ l, l < 4 → (fun l => if l < n then f l else 0) l < 2 ^ 16 := by
    intro l _; simp only; split
    · exact h l (by assumption)
    · decide
  have := set_epi16_eq hg
  unfold expand16V
  simp only [getD_range]
  rw [this, word_shrink hn (fun l h1 _ => if_neg (by omega))]
  exact word_congr (fun l hl => if_pos hl)

end NF4
end Quad
