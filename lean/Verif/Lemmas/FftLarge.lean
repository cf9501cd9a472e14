import Verif.Lemmas.FftOther
import Verif.Lemmas.BitRev

/-!
# The transform of fft_large.h
-/

namespace Quad
open Finset

variable {F : GF} [F.Plain] {K : Type} [Field K] {S : F.Sim K} {b q : Nat}

namespace Large

/-! ## Bits -/

theorem getPLoop_spec {j : Nat} : ∀ fuel x y, x < fuel → y ≤ j → getPLoop j fuel x y = x / 2 ^ (j - y) % 2 := by
  intro fuel
  induction fuel with
  | zero => intro x y h; omega
  | succ fuel ih =>
    intro x y hx hy
    unfold getPLoop
    by_cases h : y = j
    · rw [if_pos h, h, Nat.sub_self, pow_zero, Nat.div_one]
      split <;> omega
    · rw [if_neg h]
      have e : x / 2 ^ (j - y) = x / 2 / 2 ^ (j - (y + 1)) := by
        rw [Nat.div_div_eq_div_mul, ← pow_succ']
        congr 2; omega
      by_cases h0 : x / 2 ≠ 0
      · rw [if_pos h0, ih (x / 2) (y + 1) (by omega) (by omega), e]
      · rw [if_neg h0, e, show x / 2 = 0 by omega]
        simp

theorem get_p_ok {n l i j : Nat} (hi : i < n) (h1 : 1 ≤ j) (h2 : j ≤ l) : get_p n l i j = .ok (i / 2 ^ (j - 1) % 2) := by
  unfold get_p
  rw [decide_eq_true (show i ≤ n - 1 by omega), decide_eq_true (show 1 ≤ j ∧ j ≤ l from ⟨h1, h2⟩)]
  simp only [cassert, if_true, ok_bind]
  rw [getPLoop_spec _ _ _ (by omega) h1]
  rfl

theorem get_p0_ok {n l i j s : Nat} (hi : i < n) (h1 : 1 ≤ j) (h2 : j ≤ l) :
    get_p0 n l i j s = .ok (if j = s then 0 else i / 2 ^ (j - 1) % 2) := by
  unfold get_p0
  rw [decide_eq_true (show i ≤ n - 1 by omega), decide_eq_true (show 1 ≤ j ∧ j ≤ l from ⟨h1, h2⟩)]
  simp only [cassert, if_true, ok_bind]
  split
  · rfl
  · exact get_p_ok hi h1 h2

theorem get_p1_ok {n l i j s : Nat} (hi : i < n) (h1 : 1 ≤ j) (h2 : j ≤ l) :
    get_p1 n l i j s = .ok (if j = s then 1 else i / 2 ^ (j - 1) % 2) := by
  unfold get_p1
  rw [decide_eq_true (show i ≤ n - 1 by omega), decide_eq_true (show 1 ≤ j ∧ j ≤ l from ⟨h1, h2⟩)]
  simp only [cassert, if_true, ok_bind]
  split
  · rfl
  · exact get_p_ok hi h1 h2

theorem sumLoop {m : Nat} {f : Nat → Nat → Res Nat} {g : Nat → Nat} (h : ∀ k, k < m → ∀ acc, f (1 + k) acc = .ok (acc + g k)) :
    forStep 1 (m + 1) 1 0 f = .ok (∑ k ∈ range m, g k) := by
  have hst : stride 1 (m + 1) 1 = m := by simp [stride]
  obtain ⟨r, e, hr⟩ := forStep_inv (a := 1) (b := m + 1) (st := 1) (s := 0) (f := f)
    (I := fun k acc => acc = ∑ k ∈ range k, g k) (by omega) (by simp) (by
      intro k s hk hs
      refine ⟨_, by rw [mul_one]; exact h k (by omega) s, ?_⟩
      rw [sum_range_succ, hs])
  rw [e, hr, hst]

theorem sum_bitrev (m x : Nat) : ∑ k ∈ range m, x / 2 ^ k % 2 * 2 ^ (m - 1 - k) = bitrev m x := by
  induction m generalizing x with
  | zero => simp [bitrev]
  | succ m ih =>
    rw [sum_range_succ', bitrev, ← ih (x / 2), add_comm]
    congr 1
    · simp
    · refine sum_congr rfl fun k hk => ?_
      rw [Nat.div_div_eq_div_mul, ← pow_succ']
      congr 2
      have := mem_range.mp hk
      omega

theorem sum_bits (m x : Nat) : ∑ k ∈ range m, x / 2 ^ k % 2 * 2 ^ k = x % 2 ^ m := by
  induction m with
  | zero => simp [Nat.mod_one]
  | succ m ih =>
    rw [sum_range_succ, ih, Nat.mod_pow_succ]
    ring

/-- `x` with bit `s` replaced by `c` -/
def setBit (x s c : Nat) : Nat := x - x / 2 ^ s % 2 * 2 ^ s + c * 2 ^ s

theorem bit_le (x s : Nat) : x / 2 ^ s % 2 * 2 ^ s ≤ x := by
  have h1 : x / 2 ^ s % 2 ≤ x / 2 ^ s := Nat.mod_le _ _
  calc x / 2 ^ s % 2 * 2 ^ s ≤ x / 2 ^ s * 2 ^ s := Nat.mul_le_mul_right _ h1
    _ ≤ x := Nat.div_mul_le_self _ _

theorem sum_setBit {m x s c : Nat} (hx : x < 2 ^ m) (hs : s < m) :
    ∑ k ∈ range m, (if k = s then c else x / 2 ^ k % 2) * 2 ^ k = setBit x s c := by
  have h := sum_bits m x
  rw [Nat.mod_eq_of_lt hx] at h
  rw [← Finset.add_sum_erase _ _ (mem_range.mpr hs)] at h ⊢
  rw [if_pos rfl]
  have e : ∑ k ∈ (range m).erase s, (if k = s then c else x / 2 ^ k % 2) * 2 ^ k = ∑ k ∈ (range m).erase s, x / 2 ^ k % 2 * 2 ^ k :=
    sum_congr rfl fun k hk => by rw [if_neg (ne_of_mem_erase hk)]
  rw [e]
  unfold setBit
  omega

theorem setBit_form (x s c : Nat) : setBit x s c = (2 * (x / 2 ^ s / 2) + c) * 2 ^ s + x % 2 ^ s := by
  unfold setBit
  have h1 := Nat.div_add_mod x (2 ^ s)
  have h2 := Nat.div_add_mod (x / 2 ^ s) 2
  set e := x / 2 ^ s % 2
  set h := x / 2 ^ s / 2
  rw [← h2] at h1
  have : x = (2 * h + e) * 2 ^ s + x % 2 ^ s := by rw [mul_comm]; exact h1.symm
  have e1 : (2 * h + e) * 2 ^ s = 2 * h * 2 ^ s + e * 2 ^ s := by ring
  have e2 : (2 * h + c) * 2 ^ s = 2 * h * 2 ^ s + c * 2 ^ s := by ring
  omega

theorem setBit_lt {m x s c : Nat} (hx : x < 2 ^ m) (hs : s < m) (hc : c < 2) : setBit x s c < 2 ^ m := by
  rw [← sum_setBit hx hs]
  calc ∑ k ∈ range m, (if k = s then c else x / 2 ^ k % 2) * 2 ^ k ≤ ∑ k ∈ range m, 1 * 2 ^ k := by
        refine sum_le_sum fun k _ => Nat.mul_le_mul_right _ ?_
        split <;> omega
    _ = 2 ^ m - 1 := by
        simp only [one_mul]
        rw [Nat.geomSum_eq (by omega)]; simp
    _ < 2 ^ m := by have : 0 < 2 ^ m := by positivity
                    omega

/-! ## The sums -/

/-- row `i` of the table `phi` -/
def A (w : K) (x : Nat → K) (l i j : Nat) : K :=
  ∑ t ∈ range (2 ^ i), w ^ (2 ^ (l - i) * (t * bitrev i (j / 2 ^ (l - i)))) * x (t * 2 ^ (l - i) + j % 2 ^ (l - i))

theorem A_zero (w : K) (x : Nat → K) {l j : Nat} (hj : j < 2 ^ l) : A w x l 0 j = x j := by
  unfold A
  simp [Nat.mod_eq_of_lt hj]

theorem A_succ {w : K} (x : Nat → K) {l i j : Nat} (hi : i < l) (hw : w ^ (2 ^ l) = 1) :
    A w x l (i + 1) j = w ^ (2 ^ (l - (i + 1)) * bitrev (i + 1) (j / 2 ^ (l - (i + 1)))) * A w x l i (setBit j (l - (i + 1)) 1)
      + A w x l i (setBit j (l - (i + 1)) 0) := by
  obtain ⟨s, hs⟩ : ∃ s, s = l - (i + 1) := ⟨_, rfl⟩
  rw [← hs]
  have hsl : l - i = s + 1 := by omega
  have hl : l = s + 1 + i := by omega
  unfold A
  rw [← hs, hsl]
  set h := j / 2 ^ s / 2 with hh
  set e := j / 2 ^ s % 2 with he
  have hJ : j / 2 ^ s = 2 * h + e := by omega
  have hrev : bitrev (i + 1) (j / 2 ^ s) = e * 2 ^ i + bitrev i h := by
    rw [hJ]; exact bitrev_bit i h e (by omega)
  have hmod : j % 2 ^ s < 2 ^ s := Nat.mod_lt _ (by positivity)
  have hdiv : ∀ c, c < 2 → setBit j s c / 2 ^ (s + 1) = h ∧ setBit j s c % 2 ^ (s + 1) = c * 2 ^ s + j % 2 ^ s := by
    intro c hc
    rw [setBit_form]
    have e1 : (2 * (j / 2 ^ s / 2) + c) * 2 ^ s + j % 2 ^ s = (c * 2 ^ s + j % 2 ^ s) + 2 ^ (s + 1) * h := by rw [pow_succ]; ring
    have hlt : c * 2 ^ s + j % 2 ^ s < 2 ^ (s + 1) := by
      rw [pow_succ]
      have : c * 2 ^ s ≤ 1 * 2 ^ s := Nat.mul_le_mul_right _ (by omega)
      omega
    rw [e1]
    exact ⟨by rw [Nat.add_mul_div_left _ _ (by positivity), Nat.div_eq_of_lt hlt, zero_add],
      by rw [Nat.add_mul_mod_self_left, Nat.mod_eq_of_lt hlt]⟩
  rw [(hdiv 0 (by omega)).1, (hdiv 0 (by omega)).2, (hdiv 1 (by omega)).1, (hdiv 1 (by omega)).2, hrev]
  rw [pow_succ', sum_range_two_mul, sum_add_distrib, add_comm, mul_sum]
  have hw' : ∀ a, w ^ (2 ^ l * a) = 1 := fun a => by rw [pow_mul, hw, one_pow]
  congr 1
  · refine sum_congr rfl fun t _ => ?_
    rw [← mul_assoc (w ^ (2 ^ s * (e * 2 ^ i + bitrev i h))), ← pow_add]
    congr 1
    · have : 2 ^ s * ((2 * t + 1) * (e * 2 ^ i + bitrev i h))
          = 2 ^ s * (e * 2 ^ i + bitrev i h) + 2 ^ (s + 1) * (t * bitrev i h) + 2 ^ l * (t * e) := by
        rw [hl, pow_add 2 (s + 1) i, pow_succ]; ring
      rw [this, pow_add, hw', mul_one]
    · congr 1
      rw [pow_succ]; ring
  · refine sum_congr rfl fun t _ => ?_
    congr 1
    · have : 2 ^ s * ((2 * t) * (e * 2 ^ i + bitrev i h)) = 2 ^ (s + 1) * (t * bitrev i h) + 2 ^ l * (t * e) := by
        rw [hl, pow_add 2 (s + 1) i, pow_succ]; ring
      rw [this, pow_add, hw', mul_one]
    · congr 1
      rw [pow_succ]; ring

theorem A_last (w : K) (x : Nat → K) {l i : Nat} (hi : i < 2 ^ l) :
    A w x l l (bitrev l i) = ∑ j ∈ range (2 ^ l), w ^ (i * j) * x j := by
  unfold A
  refine sum_congr rfl fun t _ => ?_
  simp only [Nat.sub_self, pow_zero, Nat.div_one, Nat.mod_one, one_mul, mul_one, add_zero]
  rw [bitrev_bitrev l i hi, mul_comm t i]

/-! ## The tables -/

/-- what the tables hold -/
structure Good (C : Consts) (l : Nat) : Prop where
  t2 : ∃ f, Mat.Is C.tmp2 (l + 1) (2 ^ l) f ∧ ∀ i j, i < l → j < 2 ^ l → f (i + 1) j = setBit j (l - (i + 1)) 0
  t3 : ∃ f, Mat.Is C.tmp3 (l + 1) (2 ^ l) f ∧ ∀ i j, i < l → j < 2 ^ l → f (i + 1) j = setBit j (l - (i + 1)) 1
  t4 : ∃ f, Mat.Is C.tmp4 (l + 1) (2 ^ l) f ∧ ∀ i j, i < l → j < 2 ^ l →
    f (i + 1) j = 2 ^ (l - (i + 1)) * bitrev (i + 1) (j / 2 ^ (l - (i + 1)))
  s5 : C.tmp5.size = 2 ^ l
  t5 : ∀ i, i < 2 ^ l → gt C.tmp5 i = bitrev l i

/-- entries of row `i + 1` before column `j`, and of rows `1..i`, are as wanted -/
def Upto (M : Mat) (l i j : Nat) (g : Nat → Nat → Nat) : Prop :=
  ∃ f, Mat.Is M (l + 1) (2 ^ l) f ∧ ∀ i' j', i' < i ∨ (i' = i ∧ j' < j) → j' < 2 ^ l → f (i' + 1) j' = g i' j'

theorem Upto.set {M : Mat} {l i j : Nat} {g : Nat → Nat → Nat} (h : Upto M l i j g) (hi : i < l) (hj : j < 2 ^ l) :
    ∃ M', M.set (i + 1) j (g i j) = .ok M' ∧ Upto M' l i (j + 1) g := by
  obtain ⟨f, h1, h2⟩ := h
  obtain ⟨M', e, h3⟩ := h1.set (i := i + 1) (by omega) hj (g i j)
  refine ⟨M', e, _, h3, fun i' j' hc hj' => ?_⟩
  by_cases a : i' = i ∧ j' = j
  · obtain ⟨rfl, rfl⟩ := a; simp
  · rw [if_neg (by omega)]
    exact h2 i' j' (by omega) hj'

theorem consts_spec (l : Nat) : ∃ C, pre_compute_consts (2 ^ l) l = .ok C ∧ Good C l := by
  set g2 := fun i j => setBit j (l - (i + 1)) 0 with hg2
  set g3 := fun i j => setBit j (l - (i + 1)) 1 with hg3
  set g4 := fun i j => 2 ^ (l - (i + 1)) * bitrev (i + 1) (j / 2 ^ (l - (i + 1))) with hg4
  set f := fun (i : Nat) (s : Mat × Mat × Mat) => forN (2 ^ l) s (fun j s => do
    let t1 ← forStep 1 (i + 1) 1 0 (fun k acc => do
      let p ← get_p (2 ^ l) l j (l - i + k)
      pure (acc + p * 2 ^ (i - k)))
    let t2 ← forStep 1 (l + 1) 1 0 (fun k acc => do
      let p ← get_p0 (2 ^ l) l j k (l - i + 1)
      pure (acc + p * 2 ^ (k - 1)))
    let m2 ← s.1.set i j t2
    let t3 ← forStep 1 (l + 1) 1 0 (fun k acc => do
      let p ← get_p1 (2 ^ l) l j k (l - i + 1)
      pure (acc + p * 2 ^ (k - 1)))
    let m3 ← s.2.1.set i j t3
    let m4 ← s.2.2.set i j (t1 * 2 ^ (l - i))
    pure (m2, m3, m4)) with hf
  have z0 : ∀ g : Nat → Nat → Nat, Upto (Mat.mk' (l + 1) (2 ^ l) (fun _ => 0)) l 0 0 g := fun g =>
    ⟨_, Mat.mk'_is _ _ _, fun i' j' h => by omega⟩
  obtain ⟨⟨m2, m3, m4⟩, e, i2, i3, i4⟩ := forStep_inv (a := 1) (b := l + 1) (st := 1)
    (s := (Mat.mk' (l + 1) (2 ^ l) (fun _ => 0), Mat.mk' (l + 1) (2 ^ l) (fun _ => 0), Mat.mk' (l + 1) (2 ^ l) (fun _ => 0)))
    (f := f) (I := fun i s => Upto s.1 l i 0 g2 ∧ Upto s.2.1 l i 0 g3 ∧ Upto s.2.2 l i 0 g4)
    (by omega) ⟨z0 _, z0 _, z0 _⟩ (by
      rintro i ⟨m2, m3, m4⟩ hi ⟨i2, i3, i4⟩
      have hil : i < l := by omega
      simp only at i2 i3 i4
      rw [show 1 + i * 1 = i + 1 by omega]
      rw [hf]
      obtain ⟨⟨m2', m3', m4'⟩, e', j2, j3, j4⟩ := forN_inv (n := 2 ^ l) (s := (m2, m3, m4))
        (f := fun j (s : Mat × Mat × Mat) => do
          let t1 ← forStep 1 (i + 1 + 1) 1 0 (fun k acc => do
            let p ← get_p (2 ^ l) l j (l - (i + 1) + k)
            pure (acc + p * 2 ^ (i + 1 - k)))
          let t2 ← forStep 1 (l + 1) 1 0 (fun k acc => do
            let p ← get_p0 (2 ^ l) l j k (l - (i + 1) + 1)
            pure (acc + p * 2 ^ (k - 1)))
          let m2 ← s.1.set (i + 1) j t2
          let t3 ← forStep 1 (l + 1) 1 0 (fun k acc => do
            let p ← get_p1 (2 ^ l) l j k (l - (i + 1) + 1)
            pure (acc + p * 2 ^ (k - 1)))
          let m3 ← s.2.1.set (i + 1) j t3
          let m4 ← s.2.2.set (i + 1) j (t1 * 2 ^ (l - (i + 1)))
          pure (m2, m3, m4))
        (I := fun j s => Upto s.1 l i j g2 ∧ Upto s.2.1 l i j g3 ∧ Upto s.2.2 l i j g4)
        ⟨i2, i3, i4⟩ (by
          rintro j ⟨m2, m3, m4⟩ hj ⟨k2, k3, k4⟩
          simp only at k2 k3 k4
          have t1 : forStep 1 (i + 1 + 1) 1 0 (fun k acc => do
              let p ← get_p (2 ^ l) l j (l - (i + 1) + k)
              pure (acc + p * 2 ^ (i + 1 - k))) = .ok (bitrev (i + 1) (j / 2 ^ (l - (i + 1)))) := by
            rw [sumLoop (g := fun k => j / 2 ^ (l - (i + 1)) / 2 ^ k % 2 * 2 ^ (i + 1 - 1 - k)), sum_bitrev]
            intro k hk acc
            show (get_p (2 ^ l) l j (l - (i + 1) + (1 + k)) >>= fun p => pure (acc + p * 2 ^ (i + 1 - (1 + k)))) = _
            rw [get_p_ok hj (by omega) (by omega), ok_bind, Nat.div_div_eq_div_mul, ← pow_add,
              show l - (i + 1) + (1 + k) - 1 = l - (i + 1) + k by omega, show i + 1 - (1 + k) = i + 1 - 1 - k by omega]
            rfl
          have t2 : forStep 1 (l + 1) 1 0 (fun k acc => do
              let p ← get_p0 (2 ^ l) l j k (l - (i + 1) + 1)
              pure (acc + p * 2 ^ (k - 1))) = .ok (g2 i j) := by
            rw [sumLoop (g := fun k => (if k = l - (i + 1) then 0 else j / 2 ^ k % 2) * 2 ^ k), sum_setBit hj (by omega)]
            intro k hk acc
            show (get_p0 (2 ^ l) l j (1 + k) (l - (i + 1) + 1) >>= fun p => pure (acc + p * 2 ^ (1 + k - 1))) = _
            rw [get_p0_ok hj (by omega) (by omega), ok_bind, show 1 + k - 1 = k by omega]
            show Except.ok _ = Except.ok _
            by_cases c : k = l - (i + 1)
            · rw [if_pos c, if_pos (by omega)]
            · rw [if_neg c, if_neg (by omega)]
          have t3 : forStep 1 (l + 1) 1 0 (fun k acc => do
              let p ← get_p1 (2 ^ l) l j k (l - (i + 1) + 1)
              pure (acc + p * 2 ^ (k - 1))) = .ok (g3 i j) := by
            rw [sumLoop (g := fun k => (if k = l - (i + 1) then 1 else j / 2 ^ k % 2) * 2 ^ k), sum_setBit hj (by omega)]
            intro k hk acc
            show (get_p1 (2 ^ l) l j (1 + k) (l - (i + 1) + 1) >>= fun p => pure (acc + p * 2 ^ (1 + k - 1))) = _
            rw [get_p1_ok hj (by omega) (by omega), ok_bind, show 1 + k - 1 = k by omega]
            show Except.ok _ = Except.ok _
            by_cases c : k = l - (i + 1)
            · rw [if_pos c, if_pos (by omega)]
            · rw [if_neg c, if_neg (by omega)]
          obtain ⟨m2', e2, u2⟩ := k2.set hil hj
          obtain ⟨m3', e3, u3⟩ := k3.set hil hj
          obtain ⟨m4', e4, u4⟩ := k4.set hil hj
          refine ⟨(m2', m3', m4'), ?_, u2, u3, u4⟩
          simp only [t1, t2, t3, ok_bind, e2, e3]
          rw [show bitrev (i + 1) (j / 2 ^ (l - (i + 1))) * 2 ^ (l - (i + 1)) = g4 i j from mul_comm _ _, e4]
          rfl)
      have up : ∀ {M : Mat} {g : Nat → Nat → Nat}, Upto M l i (2 ^ l) g → Upto M l (i + 1) 0 g := by
        rintro M g ⟨f, h1, h2⟩
        exact ⟨f, h1, fun i' j' hc hj' => h2 i' j' (by omega) hj'⟩
      exact ⟨(m2', m3', m4'), e', up j2, up j3, up j4⟩)
  have hst : stride 1 (l + 1) 1 = l := by simp [stride]
  rw [hst] at i2 i3 i4
  have t5 : ∃ t5, forN (2 ^ l) (Array.replicate (2 ^ l) 0) (fun i t5 => do
      let t ← forStep 1 (l + 1) 1 0 (fun k acc => do
        let p ← get_p (2 ^ l) l i (l - k + 1)
        pure (acc + p * 2 ^ (k - 1)))
      wr t5 i t) = .ok t5 ∧ t5.size = 2 ^ l ∧ ∀ i, i < 2 ^ l → gt t5 i = bitrev l i := by
    refine forN_inv (I := fun k (a : Array Nat) => a.size = 2 ^ l ∧ ∀ i, i < k → gt a i = bitrev l i) ⟨by simp, by omega⟩ ?_
    rintro i a hi ⟨a1, a2⟩
    have t : forStep 1 (l + 1) 1 0 (fun k acc => do
        let p ← get_p (2 ^ l) l i (l - k + 1)
        pure (acc + p * 2 ^ (k - 1))) = .ok (bitrev l i) := by
      rw [sumLoop (g := fun k => i / 2 ^ (l - 1 - k) % 2 * 2 ^ k)]
      · rw [← sum_bitrev l i, ← Finset.sum_range_reflect]
        congr 1
        refine sum_congr rfl fun k hk => ?_
        have := mem_range.mp hk
        rw [show l - 1 - (l - 1 - k) = k by omega]
      · intro k hk acc
        show (get_p (2 ^ l) l i (l - (1 + k) + 1) >>= fun p => pure (acc + p * 2 ^ (1 + k - 1))) = _
        rw [get_p_ok hi (by omega) (by omega), ok_bind, show 1 + k - 1 = k by omega, show l - (1 + k) + 1 - 1 = l - 1 - k by omega]
        rfl
    refine ⟨a.setIfInBounds i (bitrev l i), ?_, by simp [a1], ?_⟩
    · rw [t, ok_bind, wr_ok (by omega)]
    · intro j hj
      rw [gt_set (by omega)]
      split
      · rename_i h; rw [h]
      · exact a2 j (by omega)
  obtain ⟨t5, e5, s5, h5⟩ := t5
  refine ⟨⟨m2, m3, m4, t5⟩, ?_, ⟨?_, ?_, ?_, s5, h5⟩⟩
  · unfold pre_compute_consts
    simp only [hf] at e
    simp only [e, ok_bind, e5]
    rfl
  all_goals
    first
    | obtain ⟨f, h1, h2⟩ := i2; exact ⟨f, h1, fun i j hi hj => h2 i j (Or.inl hi) hj⟩
    | obtain ⟨f, h1, h2⟩ := i3; exact ⟨f, h1, fun i j hi hj => h2 i j (Or.inl hi) hj⟩
    | obtain ⟨f, h1, h2⟩ := i4; exact ⟨f, h1, fun i j hi hj => h2 i j (Or.inl hi) hj⟩

/-! ## The transform -/

theorem fft_dft {l : Nat} {C : Consts} (hC : Good C l) (hmod : F.card ≠ 0 ∧ ∀ {r x y}, S.V r → S.V x → S.V y →
      S.V ((r * x + y) % F.card) ∧ S.φ ((r * x + y) % F.card) = S.φ r * S.φ x + S.φ y)
    {W : Array Nat} {w : K} (hWs : 2 ^ l ≤ W.size) (hW : ∀ i, i < 2 ^ l → S.V (gt W i) ∧ S.φ (gt W i) = w ^ i)
    (hw : w ^ 2 ^ l = 1) (mem : Nat → Nat) : IsDft S (fft F (2 ^ l) l C W mem) (2 ^ l) w := by
  intro out x ho hx hv
  obtain ⟨f2, m2, h2⟩ := hC.t2
  obtain ⟨f3, m3, h3⟩ := hC.t3
  obtain ⟨f4, m4, h4⟩ := hC.t4
  set X := fun j => S.φ (gt x j) with hX
  -- row 0
  obtain ⟨p0, e0, f, i0, v0⟩ := forN_inv (n := 2 ^ l) (s := Mat.mk' (l + 1) (2 ^ l) mem)
    (f := fun i phi => do
      let y ← rd x i
      phi.set 0 i y)
    (I := fun k phi => ∃ f, Mat.Is phi (l + 1) (2 ^ l) f ∧ ∀ j, j < k → f 0 j = gt x j)
    ⟨_, Mat.mk'_is _ _ _, by omega⟩ (by
      rintro k phi hk ⟨f, h1, h2⟩
      obtain ⟨M', e, h3⟩ := h1.set (i := 0) (by omega) hk (gt x k)
      refine ⟨M', by rw [rd_gt (by omega), ok_bind]; exact e, _, h3, fun j hj => ?_⟩
      by_cases c : j = k
      · simp [c]
      · rw [if_neg (by omega)]; exact h2 j (by omega))
  -- rows 1..l
  obtain ⟨p1, e1, g, i1, v1⟩ := forStep_inv (a := 1) (b := l + 1) (st := 1) (s := p0)
    (f := fun i phi => forN (2 ^ l) phi (fun j phi => do
      let t4 ← C.tmp4.get i j
      let r ← rd W t4
      let t3 ← C.tmp3.get i j
      let x ← phi.get (i - 1) t3
      let t2 ← C.tmp2.get i j
      let y ← phi.get (i - 1) t2
      if F.card = 0 then ub else phi.set i j ((r * x + y) % F.card)))
    (I := fun i phi => ∃ f, Mat.Is phi (l + 1) (2 ^ l) f ∧ ∀ i', i' ≤ i → ∀ j, j < 2 ^ l → S.V (f i' j) ∧ S.φ (f i' j) = A w X l i' j)
    (by omega) ⟨f, i0, fun i' hi' j hj => by
      obtain rfl : i' = 0 := by omega
      rw [v0 j hj, A_zero _ _ hj]
      exact ⟨hv j hj, rfl⟩⟩ (by
      rintro i phi hi ⟨f, i1, v1⟩
      rw [show 1 + i * 1 = i + 1 by omega]
      have hil : i < l := by omega
      obtain ⟨phi', e, f', i2, v2⟩ := forN_inv (n := 2 ^ l) (s := phi)
        (f := fun j phi => do
          let t4 ← C.tmp4.get (i + 1) j
          let r ← rd W t4
          let t3 ← C.tmp3.get (i + 1) j
          let x ← phi.get (i + 1 - 1) t3
          let t2 ← C.tmp2.get (i + 1) j
          let y ← phi.get (i + 1 - 1) t2
          if F.card = 0 then ub else phi.set (i + 1) j ((r * x + y) % F.card))
        (I := fun k phi => ∃ f, Mat.Is phi (l + 1) (2 ^ l) f ∧ ∀ i' j, i' ≤ i ∨ (i' = i + 1 ∧ j < k) → j < 2 ^ l →
          S.V (f i' j) ∧ S.φ (f i' j) = A w X l i' j)
        ⟨f, i1, fun i' j hc hj => v1 i' (by omega) j hj⟩ (by
          rintro j phi hj ⟨f, i2, v2⟩
          have b4 : f4 (i + 1) j < 2 ^ l := by
            rw [h4 i j hil hj]
            calc 2 ^ (l - (i + 1)) * bitrev (i + 1) (j / 2 ^ (l - (i + 1))) < 2 ^ (l - (i + 1)) * 2 ^ (i + 1) :=
                  Nat.mul_lt_mul_of_pos_left (bitrev_lt _ _) (by positivity)
              _ = 2 ^ l := by rw [← pow_add]; congr 1; omega
          have b3 : f3 (i + 1) j < 2 ^ l := by rw [h3 i j hil hj]; exact setBit_lt hj (by omega) (by omega)
          have b2 : f2 (i + 1) j < 2 ^ l := by rw [h2 i j hil hj]; exact setBit_lt hj (by omega) (by omega)
          obtain ⟨x1, x2⟩ := v2 i _ (Or.inl le_rfl) b3
          obtain ⟨y1, y2⟩ := v2 i _ (Or.inl le_rfl) b2
          obtain ⟨r1, r2⟩ := hW _ b4
          obtain ⟨z1, z2⟩ := hmod.2 r1 x1 y1
          obtain ⟨M', e, i3⟩ := i2.set (i := i + 1) (by omega) hj ((gt W (f4 (i + 1) j) * f i (f3 (i + 1) j) + f i (f2 (i + 1) j)) % F.card)
          refine ⟨M', ?_, _, i3, ?_⟩
          · rw [m4.get (by omega) hj, ok_bind, rd_gt (by omega), ok_bind, m3.get (by omega) hj, ok_bind,
              i2.get (by omega) b3, ok_bind, m2.get (by omega) hj, ok_bind, i2.get (by omega) b2, ok_bind, if_neg hmod.1]
            exact e
          · intro i' j' hc hj'
            by_cases a : i' = i + 1 ∧ j' = j
            · rw [if_pos a]
              obtain ⟨rfl, rfl⟩ := a
              refine ⟨z1, ?_⟩
              rw [z2, r2, x2, y2, h4 i j' hil hj, h3 i j' hil hj, h2 i j' hil hj, A_succ X hil hw]
            · rw [if_neg a]
              exact v2 i' j' (by omega) hj')
      refine ⟨phi', e, f', i2, fun i' hi' j hj => v2 i' j (by omega) hj⟩)
  have hst : stride 1 (l + 1) 1 = l := by simp [stride]
  rw [hst] at v1
  obtain ⟨r, e2, s2, v2⟩ := forN_inv (n := 2 ^ l) (s := out)
    (f := fun i out => do
      let t5 ← rd C.tmp5 i
      let x ← p1.get l t5
      wr out i x)
    (I := fun k r => r.size = 2 ^ l ∧ ∀ i, i < k → gt r i = g l (bitrev l i)) ⟨ho, by omega⟩ (by
      rintro i r hi ⟨r1, r2⟩
      refine ⟨r.setIfInBounds i (g l (bitrev l i)), ?_, by simp [r1], ?_⟩
      · have := hC.s5
        rw [rd_gt (by omega), ok_bind, hC.t5 i hi, i1.get (by omega) (bitrev_lt _ _), ok_bind, wr_ok (by omega)]
      · intro j hj
        rw [gt_set (by omega)]
        split
        · rename_i h; rw [h]
        · exact r2 j (by omega))
  refine ⟨r, ?_, s2, fun i hi => ?_⟩
  · unfold fft
    simp only [e0, ok_bind, e1, e2]
  · rw [v2 i hi]
    obtain ⟨a1, a2⟩ := v1 l le_rfl _ (bitrev_lt l i)
    exact ⟨a1, by rw [a2, A_last _ _ hi]⟩

theorem omegas_spec {w n : Nat} (hw : S.V w) {W : Array Nat} (hs : n ≤ W.size) :
    ∃ W', F.computeOmegas W n w = .ok W' ∧ W'.size = W.size ∧ ∀ i, i < n → S.V (gt W' i) ∧ S.φ (gt W' i) = S.φ w ^ i := by
  obtain ⟨W', e, h1, h2⟩ := forN_fill (n := n) (a := W) (fun i => F.omega w i) hs
  refine ⟨W', e, h1, fun i hi => ?_⟩
  rw [h2, if_pos hi]
  exact S.omega hw (fun h => by rw [GF.Plain.plain] at h; cases h)

theorem large_ft (D : DftField F b q S) (mem : Nat → Nat) (hmod : F.card ≠ 0 ∧ ∀ {r x y}, S.V r → S.V x → S.V y →
      S.V ((r * x + y) % F.card) ∧ S.φ ((r * x + y) % F.card) = S.φ r * S.φ x + S.φ y)
    {l w : Nat} (hl : 2 ^ l ∣ q - 1) (hw : S.V w) (hone : S.φ w ^ 2 ^ l = 1) :
    ∃ T v, mk' F l w mem = .ok T ∧ F.invN (2 ^ l) = .ok v ∧ IsFT S T (2 ^ l) (S.φ w) ∧ T.n = 2 ^ l ∧
      T.ifft = fun out input => T.fft_inv out input >>= fun out => scaleIf F v out := by
  obtain ⟨v, ev, _⟩ := D.invN _ hl
  obtain ⟨iw, ei, i1, i2⟩ := D.inv hw (by positivity) hone
  obtain ⟨W, eW, sW, hW⟩ := omegas_spec (S := S) (n := 2 ^ l) (W := fresh mem (2 ^ l + 1)) hw (by simp [fresh])
  obtain ⟨W', eW', sW', hW'⟩ := omegas_spec (S := S) (n := 2 ^ l) (W := fresh mem (2 ^ l + 1)) i1 (by simp [fresh])
  obtain ⟨C, eC, hC⟩ := consts_spec l
  refine ⟨vecFT F (2 ^ l) true v (fft F (2 ^ l) l C W mem) (fft F (2 ^ l) l C W' mem), v, ?_, ev, ⟨?_, ?_⟩, rfl, rfl⟩
  · unfold mk'
    simp only [ev, ok_bind, ei, eW, eW', eC]
    rfl
  · exact fft_dft hC hmod (by simp [sW, fresh]) hW hone mem
  · refine fft_dft hC hmod (by simp [sW', fresh]) (fun i hi => ⟨(hW' i hi).1, ?_⟩) (by rw [inv_pow, hone, inv_one]) mem
    rw [(hW' i hi).2, i2]

end Large
end Quad
