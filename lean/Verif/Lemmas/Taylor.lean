import Verif.Model.FftAdd
import Verif.Lemmas.FecDec
import Verif.Lemmas.MatInv
import Mathlib.Algebra.CharP.Lemmas

/-!
# Taylor expansions at `x^t - x`
-/

namespace Quad
open Finset Polynomial

namespace Additive
variable {K : Type} [Field K]

/-- the polynomial with coefficients `c 0 .. c (n-1)` -/
noncomputable def cPoly (c : Nat → K) (n : Nat) : K[X] := ∑ i ∈ range n, C (c i) * X ^ i

/-- the sum of the polynomials `h_i (x^t - x)^i`, where `h_i` has the coefficients `c (t i) .. c (t i + t - 1)` -/
noncomputable def tPoly (t : Nat) (c : Nat → K) (n : Nat) : K[X] := ∑ i ∈ range n, C (c i) * X ^ (i % t) * (X ^ t - X) ^ (i / t)

theorem cPoly_add (c : Nat → K) (m n : Nat) : cPoly c (m + n) = cPoly c m + X ^ m * cPoly (fun i => c (m + i)) n := by
  unfold cPoly
  rw [sum_range_add, mul_sum]
  congr 1
  refine sum_congr rfl fun i _ => ?_
  rw [pow_add]; ring

theorem cPoly_congr {c d : Nat → K} {n : Nat} (h : ∀ i, i < n → c i = d i) : cPoly c n = cPoly d n :=
  sum_congr rfl fun i hi => by rw [h i (mem_range.mp hi)]

theorem tPoly_congr {t : Nat} {c d : Nat → K} {n : Nat} (h : ∀ i, i < n → c i = d i) : tPoly t c n = tPoly t d n :=
  sum_congr rfl fun i hi => by rw [h i (mem_range.mp hi)]

theorem cPoly_zero_tail {c : Nat → K} {m n : Nat} (hmn : m ≤ n) (h : ∀ i, m ≤ i → i < n → c i = 0) : cPoly c n = cPoly c m := by
  obtain ⟨d, rfl⟩ := Nat.exists_eq_add_of_le hmn
  rw [cPoly_add]
  have : cPoly (fun i => c (m + i)) d = 0 := by
    unfold cPoly
    refine sum_eq_zero fun i hi => ?_
    have := mem_range.mp hi
    simp only
    rw [h (m + i) (by omega) (by omega)]
    simp
  rw [this]; ring

theorem cPoly_sum (c d : Nat → K) (n : Nat) : cPoly (fun i => c i + d i) n = cPoly c n + cPoly d n := by
  unfold cPoly
  rw [← sum_add_distrib]
  refine sum_congr rfl fun i _ => ?_
  rw [map_add]; ring

theorem tPoly_small {t : Nat} (c : Nat → K) {n : Nat} (h : n ≤ t) : tPoly t c n = cPoly c n := by
  unfold tPoly cPoly
  refine sum_congr rfl fun i hi => ?_
  have := mem_range.mp hi
  rw [Nat.mod_eq_of_lt (by omega), Nat.div_eq_of_lt (by omega), pow_zero, mul_one]

theorem tPoly_add {t : Nat} (ht : 0 < t) (c : Nat → K) (q n : Nat) :
    tPoly t c (t * q + n) = tPoly t c (t * q) + (X ^ t - X) ^ q * tPoly t (fun i => c (t * q + i)) n := by
  unfold tPoly
  rw [sum_range_add, mul_sum]
  congr 1
  refine sum_congr rfl fun i _ => ?_
  rw [Nat.mul_add_mod, Nat.mul_add_div ht, pow_add]; ring

/-- one step of the expansion -/
theorem split_step {t q n : Nat} (ht : 2 ≤ t) {c : Nat → K} (hn1 : t * q < n) (hn2 : n ≤ 2 * (t * q)) (hc : ∀ i, n ≤ i → c i = 0) :
    cPoly c n = cPoly (fun i => c i + if q ≤ i then c (t * q + (i - q)) + c (t * q + (t * q - q) + (i - q)) else 0) (t * q) +
      (X ^ (t * q) - X ^ q) * cPoly (fun i => c (t * q + i) + c (t * q + (t * q - q) + i)) (n - t * q) := by
  have hq : q ≤ t * q - q := by
    have : 2 * q ≤ t * q := Nat.mul_le_mul_right q ht
    omega
  set D := t * q with hD
  set E := D - q with hE
  have hDE : D = E + q := by omega
  set f0 := cPoly c D
  set f1 := cPoly (fun i => c (D + i)) E
  set f2 := cPoly (fun i => c (D + (E + i))) q
  have e0 : cPoly c n = f0 + X ^ D * (f1 + X ^ E * f2) := by
    rw [← cPoly_zero_tail (m := n) (n := D + (E + q)) (by omega) (fun i h _ => hc i h), cPoly_add, cPoly_add]
  have e2 : ∀ l, q ≤ l → cPoly (fun i => c (D + E + i)) l = f2 := by
    intro l hl
    rw [cPoly_zero_tail hl (fun i h _ => hc _ (by omega))]
    exact cPoly_congr fun i _ => by rw [add_assoc]
  have e1 : cPoly (fun i => c (D + i) + c (D + E + i)) (n - D) = f1 + X ^ E * f2 + f2 := by
    rw [← cPoly_zero_tail (m := n - D) (n := E + q) (by omega)
      (fun i h _ => by rw [hc _ (by omega), hc _ (by omega), add_zero]), cPoly_sum, cPoly_add, e2 _ (by omega)]
  have e3 : cPoly (fun i => c i + if q ≤ i then c (D + (i - q)) + c (D + E + (i - q)) else 0) D = f0 + X ^ q * (f1 + f2) := by
    rw [cPoly_sum]
    congr 1
    have : D = q + E := by omega
    rw [this, cPoly_add]
    have h0 : cPoly (fun i => if q ≤ i then c (q + E + (i - q)) + c (q + E + E + (i - q)) else (0 : K)) q = 0 := by
      unfold cPoly
      refine sum_eq_zero fun i hi => ?_
      have := mem_range.mp hi
      simp only
      rw [if_neg (by omega)]; simp
    rw [h0, zero_add]
    congr 1
    rw [← this]
    rw [show f1 + f2 = cPoly (fun i => c (D + i) + c (D + E + i)) E by rw [cPoly_sum, e2 _ hq]]
    exact cPoly_congr fun i _ => by rw [if_pos (by omega), Nat.add_sub_cancel_left]
  rw [e0, e1, e3]
  have : (X : K[X]) ^ D = X ^ q * X ^ E := by rw [← pow_add]; congr 1; omega
  rw [this]; ring

theorem pow_split [CharP K 2] (t k : Nat) : ((X : K[X]) ^ t - X) ^ 2 ^ k = X ^ (t * 2 ^ k) - X ^ 2 ^ k := by
  rw [sub_pow_char_pow, ← pow_mul]

/-! ### the loops -/

variable {F : GF} {S : F.Sim K}

theorem addRange_spec {a : Array Nat} {dst src len : Nat} (h1 : dst + len ≤ a.size) (h2 : 0 < len → src + len ≤ a.size)
    (hd : dst + len ≤ src ∨ src + len ≤ dst) :
    ∃ r, addRange F a dst src len = .ok r ∧ r.size = a.size ∧
      ∀ j, gt r j = if dst ≤ j ∧ j < dst + len then F.add (gt a j) (gt a (src + (j - dst))) else gt a j := by
  unfold addRange
  obtain ⟨r, e, s, h⟩ := forN_inv (n := len) (s := a) (f := fun i a => do
      let x ← rd a (dst + i)
      let y ← rd a (src + i)
      wr a (dst + i) (F.add x y))
    (I := fun k (r : Array Nat) => r.size = a.size ∧
      ∀ j, gt r j = if dst ≤ j ∧ j < dst + k then F.add (gt a j) (gt a (src + (j - dst))) else gt a j)
    ⟨rfl, fun j => by rw [if_neg (by omega)]⟩ (by
      rintro k r hk ⟨i1, i2⟩
      refine ⟨_, by rw [rd_gt (by omega), ok_bind, rd_gt (by omega), ok_bind, wr_ok (by omega)], by simp [i1], fun j => ?_⟩
      rw [gt_set (by omega)]
      by_cases hj : j = dst + k
      · subst hj
        rw [if_pos rfl, if_pos (by omega), i2, if_neg (by omega), i2, if_neg (by omega), Nat.add_sub_cancel_left]
      · rw [if_neg hj, i2]
        by_cases hlt : dst ≤ j ∧ j < dst + k
        · rw [if_pos hlt, if_pos (by omega)]
        · rw [if_neg hlt, if_neg (by omega)])
  exact ⟨r, e, s, h⟩

theorem addVec_spec {a v : Array Nat} {dst src len : Nat} (h1 : dst + len ≤ a.size) (h2 : src + len ≤ v.size) :
    ∃ r, addVec F a dst v src len = .ok r ∧ r.size = a.size ∧
      ∀ j, gt r j = if dst ≤ j ∧ j < dst + len then F.add (gt a j) (gt v (src + (j - dst))) else gt a j := by
  unfold addVec
  obtain ⟨r, e, s, h⟩ := forN_inv (n := len) (s := a) (f := fun i a => do
      let x ← rd a (dst + i)
      let y ← rd v (src + i)
      wr a (dst + i) (F.add x y))
    (I := fun k (r : Array Nat) => r.size = a.size ∧
      ∀ j, gt r j = if dst ≤ j ∧ j < dst + k then F.add (gt a j) (gt v (src + (j - dst))) else gt a j)
    ⟨rfl, fun j => by rw [if_neg (by omega)]⟩ (by
      rintro k r hk ⟨i1, i2⟩
      refine ⟨_, by rw [rd_gt (by omega), ok_bind, rd_gt (by omega), ok_bind, wr_ok (by omega)], by simp [i1], fun j => ?_⟩
      rw [gt_set (by omega)]
      by_cases hj : j = dst + k
      · subst hj
        rw [if_pos rfl, if_pos (by omega), i2, if_neg (by omega), Nat.add_sub_cancel_left]
      · rw [if_neg hj, i2]
        by_cases hlt : dst ≤ j ∧ j < dst + k
        · rw [if_pos hlt, if_pos (by omega)]
        · rw [if_neg hlt, if_neg (by omega)])
  exact ⟨r, e, s, h⟩

theorem vecCopy_spec {a v : Array Nat} {n dst src : Nat} (h : n + dst ≤ a.size) :
    ∃ r, vecCopy a v n dst src = .ok r ∧ r.size = a.size ∧
      ∀ j, gt r j = if dst ≤ j ∧ j < dst + n then gt v (src + (j - dst)) else gt a j := by
  unfold vecCopy
  simp only [cassert, h, decide_true, if_true, ok_bind]
  obtain ⟨r, e, s, h⟩ := forN_inv (n := n) (s := a)
    (f := fun i a => wr a (dst + i) (if src + i < v.size then gt v (src + i) else 0))
    (I := fun k (r : Array Nat) => r.size = a.size ∧
      ∀ j, gt r j = if dst ≤ j ∧ j < dst + k then gt v (src + (j - dst)) else gt a j)
    ⟨rfl, fun j => by rw [if_neg (by omega)]⟩ (by
      rintro k r hk ⟨i1, i2⟩
      refine ⟨_, wr_ok (by omega), by simp [i1], fun j => ?_⟩
      rw [gt_set (by omega)]
      by_cases hj : j = dst + k
      · subst hj
        rw [if_pos rfl, if_pos (show dst ≤ dst + k ∧ dst + k < dst + (k + 1) by omega), Nat.add_sub_cancel_left]
        by_cases hv : src + k < v.size
        · rw [if_pos hv]
        · rw [if_neg hv, gt_oob (by omega)]
      · rw [if_neg hj, i2]
        by_cases hlt : dst ≤ j ∧ j < dst + k
        · rw [if_pos hlt, if_pos (by omega)]
        · rw [if_neg hlt, if_neg (by omega)])
  exact ⟨r, e, s, h⟩

theorem findKLoop_spec {n : Nat} : ∀ fuel k t2k, 0 < t2k → t2k < n → n ≤ t2k + fuel →
    k ≤ findKLoop n fuel k t2k ∧ t2k * 2 ^ (findKLoop n fuel k t2k - k) < n ∧ n ≤ 2 * (t2k * 2 ^ (findKLoop n fuel k t2k - k)) := by
  intro fuel
  induction fuel with
  | zero => intro k t2k h0 h1 h2; omega
  | succ f ih =>
    intro k t2k h0 h1 h2
    unfold findKLoop
    by_cases hc : 2 * t2k ≥ n
    · rw [if_pos ⟨h1, hc⟩]
      simp only [Nat.sub_self, pow_zero, mul_one]
      omega
    · rw [if_neg (by omega)]
      obtain ⟨i1, i2, i3⟩ := ih (k + 1) (t2k * 2) (by omega) (by omega) (by omega)
      set r := findKLoop n f (k + 1) (t2k * 2)
      have e : t2k * 2 ^ (r - k) = t2k * 2 * 2 ^ (r - (k + 1)) := by
        rw [show r - k = (r - (k + 1)) + 1 by omega, pow_succ]; ring
      rw [e]
      exact ⟨by omega, i2, i3⟩

theorem find_k_spec {n t : Nat} (ht : 0 < t) (h : t < n) : ∃ k, find_k n t = .ok k ∧ t * 2 ^ k < n ∧ n ≤ 2 * (t * 2 ^ k) := by
  obtain ⟨_, h2, h3⟩ := findKLoop_spec (n := n) n 0 t ht h (by omega)
  refine ⟨findKLoop n n 0 t, ?_, by simpa using h2, by simpa using h3⟩
  simp only [find_k, cassert, h, decide_true, if_true, ok_bind]
  rfl

/-- the contents of a segment -/
def seg (S : F.Sim K) (a : Array Nat) (off : Nat) (i : Nat) : K := S.φ (gt a (off + i))

/-- every word of an array is valid -/
def AllV (S : F.Sim K) (a : Array Nat) : Prop := ∀ i, S.V (gt a i)

theorem taylorStep_spec {a : Array Nat} {off N n t q hdeg : Nat} (ht : 2 ≤ t) (hn1 : t * q < n) (hn2 : n ≤ 2 * (t * q)) (hN : n ≤ N)
    (hNt : N = n ∨ (N < n + t ∧ 0 < q)) (hh : hdeg = min (n - t * q) (t * q - q))
    (hsz : off + N ≤ a.size) (hV : AllV S a) (hz : ∀ i, n ≤ i → i < N → gt a (off + i) = 0) :
    ∃ r, taylorStep F a off N n (t * q) (t * q - q) q hdeg = .ok (r, t * q, n - t * q) ∧ r.size = a.size ∧ AllV S r ∧
      (∀ j, j < off ∨ off + n ≤ j → gt r j = gt a j) ∧
      cPoly (seg S a off) n = cPoly (seg S r off) (t * q) + (X ^ (t * q) - X ^ q) * cPoly (seg S r (off + t * q)) (n - t * q) := by
  have hq : q ≤ t * q - q := by
    have : 2 * q ≤ t * q := Nat.mul_le_mul_right q ht
    omega
  set D := t * q with hD
  set E := D - q with hE
  have hN2 : N - (D + E) ≤ n - D ∨ q ≤ n - D := by
    rcases hNt with rfl | ⟨hNt, hq0⟩
    · left; omega
    · by_cases h1 : q = 1
      · right; omega
      · left
        have : t ≤ E := by
          have h2 : t * 2 ≤ t * q := Nat.mul_le_mul_left t (by omega)
          have h3 : t * q = (t - 1) * q + q := by
            obtain ⟨s, rfl⟩ : ∃ s, t = s + 1 := ⟨t - 1, by omega⟩
            simp; ring
          have h4 : (t - 1) * 2 ≤ (t - 1) * q := Nat.mul_le_mul_left _ (by omega)
          omega
        omega
  have e0 : sliceLen D 0 N = D := by
    unfold sliceLen; split <;> omega
  have e1 : sliceLen (n - D) D N = n - D ∨ sliceLen (n - D) D N = n - D := by
    unfold sliceLen; split <;> omega
  replace e1 : sliceLen (n - D) D N = n - D := by tauto
  obtain ⟨l2, hl2⟩ : ∃ l2, l2 = sliceLen q (D + E) N := ⟨_, rfl⟩
  have hl2' : l2 = min q (N - (D + E)) := by
    rw [hl2]; unfold sliceLen; split <;> omega
  obtain ⟨r1, er1, s1, g1⟩ := addRange_spec (F := F) (a := a) (dst := off + D) (src := off + (D + E)) (len := l2) (by omega) (by omega)
    (by omega)
  obtain ⟨r2, er2, s2, g2⟩ := addRange_spec (F := F) (a := r1) (dst := off + q) (src := off + D) (len := hdeg) (by omega) (by omega)
    (by omega)
  have hV1 : AllV S r1 := by
    intro j
    rw [g1]
    split
    · exact (S.add (hV _) (hV _)).1
    · exact hV _
  have hV2 : AllV S r2 := by
    intro j
    rw [g2]
    split
    · exact (S.add (hV1 _) (hV1 _)).1
    · exact hV1 _
  refine ⟨r2, ?_, by omega, hV2, ?_, ?_⟩
  · unfold taylorStep
    simp only [e0, e1, ← hl2]
    simp only [cassert, show n - D ≥ l2 by omega, decide_true, if_true, ok_bind, er1, show hdeg = 0 ∨ D ≥ q + hdeg by omega,
      show n - D ≥ hdeg by omega, er2]
    rfl
  · intro j hj
    rw [g2, if_neg (by omega), g1]
    split
    · omega
    · rfl
  · -- the coefficients, zero beyond `n`
    set c : Nat → K := fun i => if i < n then seg S a off i else 0 with hc
    have hcN : ∀ i, i < N → c i = S.φ (gt a (off + i)) := by
      intro i hi
      simp only [hc]
      by_cases h : i < n
      · rw [if_pos h]; rfl
      · rw [if_neg h, hz i (by omega) hi, S.zero.2]
    have hcn : ∀ i, n ≤ i → c i = 0 := fun i hi => by simp only [hc]; rw [if_neg (by omega)]
    have hr1 : ∀ i, i < n - D → S.φ (gt r1 (off + (D + i))) = c (D + i) + c (D + E + i) := by
      intro i hi
      rw [g1]
      by_cases hl : i < l2
      · rw [if_pos (by omega), (S.add (hV _) (hV _)).2, hcN _ (by omega), hcN _ (by omega)]
        congr 3; omega
      · rw [if_neg (by omega), hcN _ (by omega)]
        rw [hcn (D + E + i) (by omega), add_zero]
    have h3 := split_step (K := K) ht (c := c) hn1 hn2 hcn
    rw [← hD, ← hE] at h3
    rw [show cPoly (seg S a off) n = cPoly c n from cPoly_congr fun i hi => by simp only [hc]; rw [if_pos hi], h3]
    congr 1
    · refine cPoly_congr fun i hi => ?_
      unfold seg
      rw [g2]
      by_cases hqi : q ≤ i
      · rw [if_pos hqi]
        by_cases hih : i < q + hdeg
        · rw [if_pos (by omega), (S.add (hV1 _) (hV1 _)).2]
          have : off + D + (off + i - (off + q)) = off + (D + (i - q)) := by omega
          rw [this, hr1 _ (by omega), g1, if_neg (by omega), hcN _ (by omega)]
        · rw [if_neg (by omega), g1, if_neg (by omega), hcn (D + (i - q)) (by omega), hcn (D + E + (i - q)) (by omega), hcN _ (by omega)]
          simp
      · rw [if_neg hqi, if_neg (by omega), g1, if_neg (by omega), hcN _ (by omega), add_zero]
    · congr 1
      refine cPoly_congr fun i hi => ?_
      unfold seg
      rw [g2, if_neg (by omega), add_assoc off, hr1 i hi]

theorem seg_congr {a r : Array Nat} {off n : Nat} (h : ∀ j, off ≤ j → j < off + n → gt r j = gt a j) :
    ∀ i, i < n → seg S r off i = seg S a off i := fun i hi => by unfold seg; rw [h _ (by omega) (by omega)]

/-- joining the expansions of the two halves -/
theorem join [CharP K 2] {a1 a2 a3 : Array Nat} {off t k n : Nat} (ht : 0 < t) (hn : t * 2 ^ k ≤ n) {P : K[X]}
    (hP : P = cPoly (seg S a1 off) (t * 2 ^ k) + (X ^ (t * 2 ^ k) - X ^ 2 ^ k) * cPoly (seg S a1 (off + t * 2 ^ k)) (n - t * 2 ^ k))
    (h2 : tPoly t (seg S a2 off) (t * 2 ^ k) = cPoly (seg S a1 off) (t * 2 ^ k))
    (h2' : ∀ j, j < off ∨ off + t * 2 ^ k ≤ j → gt a2 j = gt a1 j)
    (h3 : tPoly t (seg S a3 (off + t * 2 ^ k)) (n - t * 2 ^ k) = cPoly (seg S a2 (off + t * 2 ^ k)) (n - t * 2 ^ k))
    (h3' : ∀ j, j < off + t * 2 ^ k ∨ off + n ≤ j → gt a3 j = gt a2 j) :
    tPoly t (seg S a3 off) n = P := by
  have hs := tPoly_add (K := K) ht (seg S a3 off) (2 ^ k) (n - t * 2 ^ k)
  rw [Nat.add_sub_cancel' hn] at hs
  have e1 : (fun i => seg S a3 off (t * 2 ^ k + i)) = seg S a3 (off + t * 2 ^ k) := by
    funext i; unfold seg; rw [add_assoc]
  rw [e1] at hs
  rw [hs, h3, hP, pow_split, tPoly_congr (seg_congr (a := a2) fun j _ hj => h3' j (by omega)), h2,
    cPoly_congr (seg_congr (a := a1) fun j hj _ => h2' j (by omega))]

theorem taylorRec_spec [CharP K 2] {b t : Nat} (ht : 2 ≤ t) : ∀ fuel (a : Array Nat) (off N n : Nat), n ≤ fuel → t < n → n ≤ N → N < n + t → n ≤ 2 ^ b →
    off + N ≤ a.size → AllV S a → (∀ i, n ≤ i → i < N → gt a (off + i) = 0) →
    ∃ r, taylorRec F b t fuel a off N n = .ok r ∧ r.size = a.size ∧ AllV S r ∧ (∀ j, j < off ∨ off + n ≤ j → gt r j = gt a j) ∧
      tPoly t (seg S r off) n = cPoly (seg S a off) n := by
  intro fuel
  induction fuel with
  | zero => intro a off N n h1 h2; omega
  | succ f ih =>
    intro a off N n hf htn hN hNt hb hsz hV hz
    obtain ⟨k, ek, k1, k2⟩ := find_k_spec (n := n) (t := t) (by omega) htn
    have hkb : k < b := by
      by_contra hc
      have h1 : 2 ^ b ≤ 2 ^ k := Nat.pow_le_pow_right (by omega) (by omega)
      have h2 : 2 ^ k ≤ t * 2 ^ k := Nat.le_mul_of_pos_left _ (by omega)
      omega
    obtain ⟨a1, e1, s1, v1, o1, p1⟩ := taylorStep_spec (F := F) (S := S) (a := a) (off := off) (N := N) (n := n) (t := t) (q := 2 ^ k)
      (hdeg := if n - t * 2 ^ k < t * 2 ^ k - 2 ^ k then n - t * 2 ^ k else t * 2 ^ k - 2 ^ k)
      ht k1 k2 hN (.inr ⟨hNt, by positivity⟩) (by rw [Nat.min_def]; split <;> split <;> omega) hsz hV hz
    have hA : ∃ a2, (if t * 2 ^ k > t then taylorRec F b t f a1 off (t * 2 ^ k) (t * 2 ^ k) else pure a1) = .ok a2 ∧ a2.size = a1.size ∧
        AllV S a2 ∧ (∀ j, j < off ∨ off + t * 2 ^ k ≤ j → gt a2 j = gt a1 j) ∧
        tPoly t (seg S a2 off) (t * 2 ^ k) = cPoly (seg S a1 off) (t * 2 ^ k) := by
      by_cases hc : t * 2 ^ k > t
      · rw [if_pos hc]
        exact ih a1 off (t * 2 ^ k) (t * 2 ^ k) (by omega) hc le_rfl (by omega) (by omega) (by omega) v1 (fun i h1 h2 => by omega)
      · rw [if_neg hc]
        exact ⟨a1, rfl, rfl, v1, fun _ _ => rfl, tPoly_small _ (by omega)⟩
    obtain ⟨a2, e2, s2, v2, o2, p2⟩ := hA
    have hB : ∃ a3, (if n - t * 2 ^ k > t then taylorRec F b t f a2 (off + t * 2 ^ k) (n - t * 2 ^ k) (n - t * 2 ^ k) else pure a2) = .ok a3 ∧
        a3.size = a2.size ∧ AllV S a3 ∧ (∀ j, j < off + t * 2 ^ k ∨ off + n ≤ j → gt a3 j = gt a2 j) ∧
        tPoly t (seg S a3 (off + t * 2 ^ k)) (n - t * 2 ^ k) = cPoly (seg S a2 (off + t * 2 ^ k)) (n - t * 2 ^ k) := by
      by_cases hc : n - t * 2 ^ k > t
      · rw [if_pos hc]
        obtain ⟨r, e, s, v, o, p⟩ := ih a2 (off + t * 2 ^ k) (n - t * 2 ^ k) (n - t * 2 ^ k) (by omega) hc le_rfl (by omega) (by omega)
          (by omega) v2 (fun i h1 h2 => by omega)
        exact ⟨r, e, s, v, fun j hj => o j (by omega), p⟩
      · rw [if_neg hc]
        exact ⟨a2, rfl, rfl, v2, fun _ _ => rfl, tPoly_small _ (by omega)⟩
    obtain ⟨a3, e3, s3, v3, o3, p3⟩ := hB
    refine ⟨a3, ?_, by omega, v3, fun j hj => ?_, ?_⟩
    · unfold taylorRec
      rw [ek, ok_bind, Arith.exp2_eq hkb, ok_bind]
      simp only
      rw [e1, ok_bind]
      simp only
      rw [e2, ok_bind, e3]
    · rw [o3 j (by omega), o2 j (by omega), o1 j (by omega)]
    · exact join (by omega) (by omega) p1 p2 o2 p3 o3

theorem taylorT2_spec [CharP K 2] {b : Nat} : ∀ k (a : Array Nat) (off : Nat), k < b → off + 4 * 2 ^ k ≤ a.size → AllV S a →
    ∃ r, taylorT2 F b k a off (4 * 2 ^ k) (4 * 2 ^ k) = .ok r ∧ r.size = a.size ∧ AllV S r ∧
      (∀ j, j < off ∨ off + 4 * 2 ^ k ≤ j → gt r j = gt a j) ∧
      tPoly 2 (seg S r off) (4 * 2 ^ k) = cPoly (seg S a off) (4 * 2 ^ k) := by
  intro k
  induction k with
  | zero =>
    intro a off hb hsz hV
    obtain ⟨a1, e1, s1, v1, o1, p1⟩ := taylorStep_spec (F := F) (S := S) (a := a) (off := off) (N := 4) (n := 4) (t := 2) (q := 2 ^ 0)
      (hdeg := 1) le_rfl (by norm_num) (by norm_num) le_rfl (.inl rfl) (by norm_num) (by simpa using hsz) hV (by omega)
    refine ⟨a1, ?_, s1, v1, o1, ?_⟩
    · unfold taylorT2
      rw [Arith.exp2_eq hb, ok_bind]
      simp only
      rw [show 4 * 2 ^ 0 = 4 by norm_num]
      rw [show taylorStep F a off 4 4 (2 * 2 ^ 0) (2 * 2 ^ 0 - 2 ^ 0) (2 ^ 0) (2 * 2 ^ 0 - 2 ^ 0) = _ from e1]
      rfl
    · exact join (k := 0) (n := 4) (a2 := a1) (by omega) (by norm_num) p1 (tPoly_small _ (by norm_num)) (fun _ _ => rfl)
        (tPoly_small _ (by norm_num)) (fun _ _ => rfl)
  | succ k ih =>
    intro a off hb hsz hV
    have hpos : 0 < 2 ^ k := by positivity
    have hp : 2 ^ (k + 1) = 2 * 2 ^ k := by rw [pow_succ]; ring
    have h4 : 2 * 2 ^ (k + 1) = 4 * 2 ^ k := by omega
    obtain ⟨a1, e1, s1, v1, o1, p1⟩ := taylorStep_spec (F := F) (S := S) (a := a) (off := off) (N := 4 * 2 ^ (k + 1))
      (n := 4 * 2 ^ (k + 1)) (t := 2) (q := 2 ^ (k + 1))
      (hdeg := 2 * 2 ^ (k + 1) - 2 ^ (k + 1)) le_rfl (by omega) (by omega) le_rfl (.inl rfl) (by omega) hsz hV (by omega)
    have hsub : 4 * 2 ^ (k + 1) - 2 * 2 ^ (k + 1) = 4 * 2 ^ k := by omega
    obtain ⟨a2, e2, s2, v2, o2, p2⟩ := ih a1 off (by omega) (by omega) v1
    obtain ⟨a3, e3, s3, v3, o3, p3⟩ := ih a2 (off + 4 * 2 ^ k) (by omega) (by omega) v2
    refine ⟨a3, ?_, by omega, v3, fun j hj => ?_, ?_⟩
    · unfold taylorT2
      rw [Arith.exp2_eq hb, ok_bind]
      simp only
      rw [e1, ok_bind]
      simp only
      rw [hsub, h4, e2, ok_bind, e3]
    · rw [o3 j (by omega), o2 j (by omega), o1 j (by omega)]
    · refine join (k := k + 1) (n := 4 * 2 ^ (k + 1)) (a2 := a2) (by omega) (by omega) p1 ?_ ?_ ?_ ?_
      · rw [h4]; exact p2
      · rw [h4]; exact o2
      · rw [hsub, h4]; exact p3
      · rw [h4]; exact fun j hj => o3 j (by omega)

/-- `taylor_expand`: the output holds the expansion of the polynomial with the coefficients `input` -/
theorem taylor_expand_spec [CharP K 2] {b n t : Nat} {output input : Array Nat} (ht : 2 ≤ t) (hn : 0 < n) (hi : input.size ≤ n)
    (ho : n ≤ output.size) (ho' : output.size < n + t) (hb : n ≤ 2 ^ b) (hV : AllV S input) :
    ∃ r, taylor_expand F b output input n t = .ok r ∧ r.size = output.size ∧ AllV S r ∧
      tPoly t (fun i => S.φ (gt r i)) output.size = cPoly (fun i => S.φ (gt input i)) n := by
  obtain ⟨o0, ho0⟩ : ∃ o0, o0 = if output.size > input.size then Array.replicate output.size 0 else output := ⟨_, rfl⟩
  have hs0 : o0.size = output.size := by rw [ho0]; split <;> simp
  have hg0 : ∀ j, input.size ≤ j → gt o0 j = 0 := by
    intro j hj
    rw [ho0]
    split
    · by_cases h : j < output.size
      · rw [gt_replicate h]
      · rw [gt_oob (by simp; omega)]
    · rw [gt_oob (by omega)]
  obtain ⟨o1, e1, s1, g1⟩ := vecCopy_spec (a := o0) (v := input) (n := input.size) (dst := 0) (src := 0) (by omega)
  have hg1 : ∀ j, gt o1 j = gt input j := by
    intro j
    rw [g1]
    by_cases h : j < input.size
    · rw [if_pos (by omega)]; simp
    · rw [if_neg (by omega), hg0 _ (by omega), gt_oob (by omega)]
  have hV1 : AllV S o1 := fun j => by rw [hg1]; exact hV j
  have hz1 : ∀ j, input.size ≤ j → gt o1 j = 0 := fun j hj => by rw [hg1, gt_oob hj]
  have hpre : taylor_expand F b output input n t = if n > t then taylorRec F b t n o1 0 o1.size n else pure o1 := by
    unfold taylor_expand
    simp only [cassert, show n ≥ 1 from hn, show t > 1 from ht, hi, decide_true, if_true, ok_bind]
    rw [← ho0, e1, ok_bind]
  have hseg : cPoly (seg S o1 0) n = cPoly (fun i => S.φ (gt input i)) n :=
    cPoly_congr fun i _ => by unfold seg; rw [hg1, zero_add]
  rw [hpre]
  have htail : ∀ r : Array Nat, (∀ j, n ≤ j → gt r j = 0) → tPoly t (fun i => S.φ (gt r i)) output.size = tPoly t (seg S r 0) n := by
    intro r hr
    obtain ⟨d, hd⟩ := Nat.exists_eq_add_of_le ho
    unfold tPoly
    rw [hd, sum_range_add, sum_eq_zero (s := range d), add_zero]
    · exact sum_congr rfl fun i _ => by unfold seg; rw [zero_add]
    · intro i _
      simp only
      rw [hr _ (by omega), S.zero.2]; simp
  by_cases hc : n > t
  · rw [if_pos hc]
    obtain ⟨r, e, s, v, o, p⟩ := taylorRec_spec (F := F) (S := S) (b := b) ht n o1 0 o1.size n le_rfl hc (by omega) (by omega) hb (by omega) hV1
      (fun i h1 h2 => by rw [zero_add]; exact hz1 i (by omega))
    refine ⟨r, e, by omega, v, ?_⟩
    rw [htail r (fun j hj => by rw [o j (by omega)]; exact hz1 j (by omega)), p, hseg]
  · rw [if_neg hc]
    refine ⟨o1, rfl, by omega, hV1, ?_⟩
    rw [htail o1 (fun j hj => hz1 j (by omega)), tPoly_small _ (by omega), hseg]

/-! ### the way back -/

theorem polyOf_eq (a : Array Nat) : polyOf S a = cPoly (fun i => S.φ (gt a i)) a.size := rfl

theorem mul_xt_x_gt {v : Array Nat} {t : Nat} (ht : 1 ≤ t) (htn : t ≤ v.size) :
    ∃ r, mul_xt_x F v t = .ok r ∧ r.size = v.size ∧
      ∀ j, j < v.size → gt r j = if j = 0 then 0 else if j < t then gt v (j - 1) else F.add (gt v (j - t)) (gt v (j - 1)) := by
  obtain ⟨n, hn⟩ : ∃ n, n = v.size := ⟨_, rfl⟩
  obtain ⟨r1, e1, s1, g1⟩ := forN_inv (n := n - t) (s := v) (f := fun s v => do
      let i := n - 1 - s
      let x ← rd v (i - t)
      let y ← rd v (i - 1)
      wr v i (F.add x y))
    (I := fun s (r : Array Nat) => r.size = n ∧
      ∀ j, j < n → gt r j = if n - s ≤ j then F.add (gt v (j - t)) (gt v (j - 1)) else gt v j)
    ⟨hn.symm, fun j hj => by rw [if_neg (by omega)]⟩ (by
      rintro s r hs ⟨i1, i2⟩
      refine ⟨_, by simp only; rw [rd_gt (by omega), ok_bind, rd_gt (by omega), ok_bind, wr_ok (by omega)], by simp [i1], fun j hj => ?_⟩
      rw [gt_set (by omega)]
      by_cases hj' : j = n - 1 - s
      · subst hj'
        rw [if_pos rfl, if_pos (by omega), i2 _ (by omega), if_neg (by omega), i2 _ (by omega), if_neg (by omega)]
      · rw [if_neg hj', i2 _ hj]
        by_cases h : n - s ≤ j
        · rw [if_pos h, if_pos (by omega)]
        · rw [if_neg h, if_neg (by omega)])
  obtain ⟨last, hlast⟩ : ∃ last, last = min (n - 1) (t - 1) := ⟨_, rfl⟩
  obtain ⟨r2, e2, s2, g2⟩ := forN_inv (n := last) (s := r1) (f := fun s v => do
      let i := last - s
      let x ← rd v (i - 1)
      wr v i x)
    (I := fun s (r : Array Nat) => r.size = n ∧
      ∀ j, j < n → gt r j = if last - s < j ∧ j ≤ last then gt r1 (j - 1) else gt r1 j)
    ⟨s1, fun j hj => by rw [if_neg (by omega)]⟩ (by
      rintro s r hs ⟨i1, i2⟩
      refine ⟨_, by simp only; rw [rd_gt (by omega), ok_bind, wr_ok (by omega)], by simp [i1], fun j hj => ?_⟩
      rw [gt_set (by omega)]
      by_cases hj' : j = last - s
      · subst hj'
        rw [if_pos rfl, if_pos (by omega), i2 _ (by omega), if_neg (by omega)]
      · rw [if_neg hj', i2 _ hj]
        by_cases h : last - s < j ∧ j ≤ last
        · rw [if_pos h, if_pos (by omega)]
        · rw [if_neg h, if_neg (by omega)])
  refine ⟨r2.setIfInBounds 0 0, ?_, by simp; omega, fun j hj => ?_⟩
  · unfold mul_xt_x
    simp only
    rw [← hn, ← hlast, e1, ok_bind, e2, ok_bind, wr_ok (by omega)]
  · rw [gt_set (by omega)]
    by_cases h0 : j = 0
    · rw [if_pos h0, if_pos h0]
    · rw [if_neg h0, if_neg h0, g2 _ (by omega)]
      by_cases hjt : j < t
      · rw [if_pos (by omega), if_pos hjt, g1 _ (by omega), if_neg (by omega)]
      · rw [if_neg (by omega), if_neg hjt, g1 _ (by omega), if_pos (by omega)]

theorem mul_xt_x_spec [CharP K 2] {v : Array Nat} {t L : Nat} (ht : 2 ≤ t) (hL : L + t ≤ v.size) (hV : AllV S v) (hz : ∀ j, L ≤ j → gt v j = 0) :
    ∃ r, mul_xt_x F v t = .ok r ∧ r.size = v.size ∧ AllV S r ∧ (∀ j, L + t ≤ j → gt r j = 0 ∨ S.φ (gt r j) = 0) ∧
      polyOf S r = polyOf S v * (X ^ t - X) := by
  obtain ⟨r, e, s, g⟩ := mul_xt_x_gt (F := F) (v := v) (t := t) (by omega) (by omega)
  have hVr : AllV S r := by
    intro j
    by_cases hj : j < v.size
    · rw [g j hj]
      split
      · exact S.zero.1
      · split
        · exact hV _
        · exact (S.add (hV _) (hV _)).1
    · rw [gt_oob (by omega)]; exact S.zero.1
  have hcoef : ∀ j, S.φ (gt r j) = (if t ≤ j then S.φ (gt v (j - t)) else 0) + (if 1 ≤ j then S.φ (gt v (j - 1)) else 0) := by
    intro j
    by_cases hj : j < v.size
    · rw [g j hj]
      by_cases h0 : j = 0
      · rw [if_pos h0, if_neg (by omega), if_neg (by omega), S.zero.2, add_zero]
      · rw [if_neg h0, if_pos (show 1 ≤ j by omega)]
        by_cases hjt : j < t
        · rw [if_pos hjt, if_neg (by omega), zero_add]
        · rw [if_neg hjt, if_pos (by omega), (S.add (hV _) (hV _)).2]
    · rw [gt_oob (by omega), if_pos (by omega), if_pos (by omega), hz _ (by omega), hz _ (by omega)]
      show S.φ 0 = S.φ 0 + S.φ 0
      rw [S.zero.2, add_zero]
  refine ⟨r, e, s, hVr, fun j hj => .inr ?_, ?_⟩
  · rw [hcoef, if_pos (by omega), if_pos (by omega), hz _ (by omega), hz _ (by omega), S.zero.2, add_zero]
  · ext j
    rw [polyOf_coeff, hcoef, CharTwo.sub_eq_add, mul_add, coeff_add, coeff_mul_X_pow']
    congr 1
    · split
      · rw [polyOf_coeff]
      · rfl
    · cases j with
      | zero => simp
      | succ j => rw [coeff_mul_X, polyOf_coeff, if_pos (by omega), Nat.add_sub_cancel]

/-- adding a block of `t` coefficients at the bottom -/
theorem addLow_spec {v w : Array Nat} {t src : Nat} (h1 : t ≤ v.size) (h2 : src + t ≤ w.size) (hV : AllV S v) (hW : AllV S w) :
    ∃ r, addVec F v 0 w src t = .ok r ∧ r.size = v.size ∧ AllV S r ∧ (∀ j, t ≤ j → gt r j = gt v j) ∧
      polyOf S r = polyOf S v + cPoly (fun i => S.φ (gt w (src + i))) t := by
  obtain ⟨r, e, s, g⟩ := addVec_spec (F := F) (a := v) (v := w) (dst := 0) (src := src) (len := t) (by omega) h2
  have hg : ∀ j, gt r j = if j < t then F.add (gt v j) (gt w (src + j)) else gt v j := by
    intro j
    rw [g]
    by_cases h : j < t
    · rw [if_pos (by omega), if_pos h, Nat.sub_zero]
    · rw [if_neg (by omega), if_neg h]
  refine ⟨r, e, s, fun j => ?_, fun j hj => by rw [hg, if_neg (by omega)], ?_⟩
  · rw [hg]; split
    · exact (S.add (hV _) (hW _)).1
    · exact hV _
  · ext j
    have hc : (cPoly (fun i => S.φ (gt w (src + i))) t).coeff j = if j < t then S.φ (gt w (src + j)) else 0 := by
      unfold cPoly
      simp [Polynomial.finset_sum_coeff, coeff_C_mul, coeff_X_pow]
    rw [coeff_add, polyOf_coeff, polyOf_coeff, hc, hg]
    by_cases h : j < t
    · rw [if_pos h, if_pos h, (S.add (hV _) (hW _)).2]
    · rw [if_neg h, if_neg h, add_zero]

theorem replicate_zero_gt {n j : Nat} : gt (Array.replicate n 0) j = 0 := by
  by_cases h : j < n
  · rw [gt_replicate h]
  · rw [gt_oob (by simp; omega)]

theorem polyOf_zero (n : Nat) : polyOf S (Array.replicate n 0) = 0 := by
  ext j; rw [polyOf_coeff, replicate_zero_gt, S.zero.2, coeff_zero]

/-- `inv_taylor_expand` evaluates an expansion -/
theorem inv_taylor_expand_spec [CharP K 2] (hF : S.Full) {fft_n t M : Nat} {output input : Array Nat} (ht : 2 ≤ t) (hM : 0 < M) (hi : input.size = t * M)
    (ho : output.size ≤ t * M) (hon : output.size ≤ fft_n) (hV : AllV S input) :
    ∃ r, inv_taylor_expand F fft_n output input t = .ok r ∧ r.size = output.size ∧ AllV S r ∧
      ∀ i, i < output.size → S.φ (gt r i) = (tPoly t (fun i => S.φ (gt input i)) input.size).coeff i := by
  have hMt : t ≤ t * M := Nat.le_mul_of_pos_right t hM
  obtain ⟨v0, e0, s0, V0, z0, p0⟩ := addLow_spec (F := F) (S := S) (v := Array.replicate input.size 0) (w := input) (t := t)
    (src := input.size - t) (by simp; omega) (by omega) (fun j => by rw [replicate_zero_gt]; exact S.zero.1) hV
  have hdiv : (input.size - t) / t = M - 1 := by
    rw [hi, show t * M - t = t * (M - 1) by rw [Nat.mul_sub, Nat.mul_one]]
    exact Nat.mul_div_cancel_left _ (by omega)
  have hpos : ∀ s, s < M → input.size - t - s * t = t * (M - 1 - s) := by
    intro s hs
    rw [hi]
    have : t * M = t * (M - 1 - s) + t + s * t := by
      obtain ⟨d, rfl⟩ : ∃ d, M = d + 1 + s := ⟨M - 1 - s, by omega⟩
      rw [show d + 1 + s - 1 - s = d by omega]; ring
    omega
  obtain ⟨v1, e1, s1, V1, z1, p1⟩ := forN_inv (n := (input.size - t) / t) (s := v0) (f := fun s tmp => do
      let tmp ← mul_xt_x F tmp t
      addVec F tmp 0 input (input.size - t - (s + 1) * t) t)
    (I := fun s (v : Array Nat) => v.size = input.size ∧ AllV S v ∧ (∀ j, (s + 1) * t ≤ j → gt v j = 0) ∧
      polyOf S v = tPoly t (fun i => S.φ (gt input (t * (M - 1 - s) + i))) ((s + 1) * t))
    ⟨by simpa using s0, V0, fun j hj => by rw [z0 j (by omega), replicate_zero_gt], by
      rw [p0, polyOf_zero, zero_add, zero_add, one_mul, tPoly_small _ le_rfl]
      have := hpos 0 hM
      rw [zero_mul, Nat.sub_zero] at this
      rw [this]⟩ (by
      rintro s v hs ⟨i1, i2, i3, i4⟩
      rw [hdiv] at hs
      have hb1 : (s + 1) * t + t ≤ t * M := by
        have : (s + 1 + 1) * t ≤ M * t := Nat.mul_le_mul_right t (by omega)
        rw [mul_comm t M]; linarith [this, add_mul (s + 1) 1 t]
      obtain ⟨r1, er1, sr1, vr1, zr1, pr1⟩ := mul_xt_x_spec (F := F) (S := S) (v := v) (t := t) (L := (s + 1) * t) ht (by omega) i2 i3
      have hp := hpos (s + 1) (by omega)
      obtain ⟨r2, er2, sr2, vr2, zr2, pr2⟩ := addLow_spec (F := F) (S := S) (v := r1) (w := input) (t := t)
        (src := input.size - t - (s + 1) * t) (by omega) (by omega) vr1 hV
      refine ⟨r2, by rw [er1, ok_bind, er2], by omega, vr2, fun j hj => ?_, ?_⟩
      · have hj' : (s + 1) * t + t ≤ j := by
          have := add_mul (s + 1) 1 t
          omega
        rw [zr2 j (by omega)]
        rcases zr1 j hj' with h | h
        · exact h
        · exact (hF.eq_zero (vr1 j)).1 h
      · rw [pr2, pr1, i4, hp]
        have h2 := tPoly_add (K := K) (t := t) (by omega) (fun i => S.φ (gt input (t * (M - 1 - (s + 1)) + i))) 1 ((s + 1) * t)
        rw [mul_one, pow_one, tPoly_small _ le_rfl] at h2
        rw [show (s + 1 + 1) * t = t + (s + 1) * t by ring, h2, add_comm]
        congr 1
        rw [mul_comm]
        congr 1
        refine tPoly_congr fun i _ => ?_
        rw [← add_assoc]
        congr 3
        obtain ⟨d, rfl⟩ : ∃ d, M = d + 1 + (s + 1) := ⟨M - 1 - (s + 1), by omega⟩
        rw [show d + 1 + (s + 1) - 1 - s = d + 1 by omega, show d + 1 + (s + 1) - 1 - (s + 1) = d by omega]
        ring)
  obtain ⟨r, e2, s2, g2⟩ := vecCopy_spec (a := output) (v := v1) (n := output.size) (dst := 0) (src := 0) (by omega)
  have hg : ∀ i, i < output.size → gt r i = gt v1 i := by
    intro i hi
    rw [g2, if_pos (by omega)]; simp
  refine ⟨r, ?_, s2, fun i => ?_, fun i hi' => ?_⟩
  · unfold inv_taylor_expand
    simp only [cassert, hon, show input.size ≥ output.size by omega, decide_true, if_true, ok_bind]
    rw [if_neg (by omega), if_neg (by omega), e0, ok_bind, e1, ok_bind, e2]
  · by_cases h : i < output.size
    · rw [hg i h]; exact V1 _
    · rw [gt_oob (by omega)]; exact S.zero.1
  · rw [hg i hi', ← polyOf_coeff, p1, hdiv]
    rw [show M - 1 + 1 = M by omega, Nat.sub_self, hi, mul_comm M t]
    simp

/-! ### expansion at `x^2 - x` -/

/-- the expansion held by two vectors -/
def il (g0 g1 : Array Nat) (i : Nat) : Nat := if i % 2 = 0 then gt g0 (i / 2) else gt g1 (i / 2)

theorem is_pow (e : Nat) : Arith.is_power_of_2 ((2 ^ e : Nat) : Int) = true := (Arith.is_power_of_2_iff _).mpr ⟨e, by push_cast; rfl⟩

theorem taylor_expand_t2_spec [CharP K 2] {b e : Nat} {g0 g1 input : Array Nat} (hi : input.size = 2 ^ e) (hb : e ≤ b)
    (h0 : 2 ^ e ≤ 2 * g0.size) (h1 : 2 ^ e ≤ 2 * g1.size) (hV : AllV S input) :
    ∃ inp g0' g1', taylor_expand_t2 F b g0 g1 input (2 ^ e) = .ok (inp, g0', g1') ∧ g0'.size = g0.size ∧ g1'.size = g1.size ∧
      (∀ i, i < 2 ^ e → S.V (il g0' g1' i)) ∧ tPoly 2 (fun i => S.φ (il g0' g1' i)) (2 ^ e) = polyOf S input := by
  have hpos : 0 < 2 ^ e := by positivity
  unfold taylor_expand_t2
  simp only [cassert, show 2 ^ e ≥ 1 from hpos, hi, le_refl, is_pow, decide_true, if_true, ok_bind]
  by_cases h2 : 2 ^ e ≤ 2
  · rw [if_pos h2, rd_gt (by omega), ok_bind, wr_ok (by omega), ok_bind]
    by_cases h2' : 2 ^ e = 2
    · rw [if_pos h2', rd_gt (by omega), ok_bind, wr_ok (by omega), ok_bind]
      have hil : ∀ i, i < 2 → il (g0.setIfInBounds 0 (gt input 0)) (g1.setIfInBounds 0 (gt input 1)) i = gt input i := by
        intro i hi
        unfold il
        rcases (show i = 0 ∨ i = 1 by omega) with rfl | rfl
        · rw [if_pos (by norm_num), gt_set (by omega), if_pos (by norm_num)]
        · rw [if_neg (by norm_num), gt_set (by omega), if_pos (by norm_num)]
      refine ⟨_, _, _, rfl, by simp, by simp, fun i hi' => by rw [hil i (by omega)]; exact hV i, ?_⟩
      rw [polyOf_eq, hi, tPoly_small _ h2]
      exact cPoly_congr fun i hi' => by rw [hil i (by omega)]
    · rw [if_neg h2']
      have hil : ∀ i, i < 1 → il (g0.setIfInBounds 0 (gt input 0)) g1 i = gt input i := by
        intro i hi
        unfold il
        obtain rfl : i = 0 := by omega
        rw [if_pos (by norm_num), gt_set (by omega), if_pos (by norm_num)]
      refine ⟨_, _, _, rfl, by simp, rfl, fun i hi' => by rw [hil i (by omega)]; exact hV i, ?_⟩
      rw [polyOf_eq, hi, tPoly_small _ h2]
      exact cPoly_congr fun i hi' => by rw [hil i (by omega)]
  · rw [if_neg h2]
    have he : 2 ≤ e := by
      by_contra hc
      have : 2 ^ e ≤ 2 ^ 1 := Nat.pow_le_pow_right (by omega) (by omega)
      omega
    obtain ⟨k, ek, k1, k2⟩ := find_k_spec (n := 2 ^ e) (t := 2) (by omega) (by omega)
    have hk : k = e - 2 := by
      rw [← pow_succ'] at k1
      rw [← pow_succ', ← pow_succ'] at k2
      have h3 := (Nat.pow_lt_pow_iff_right (by omega : 1 < 2)).1 k1
      have h4 := (Nat.pow_le_pow_iff_right (by omega : 1 < 2)).1 k2
      omega
    have h4 : 2 ^ e = 4 * 2 ^ k := by
      rw [hk, show (4 : Nat) = 2 ^ 2 by norm_num, ← pow_add]; congr 1; omega
    obtain ⟨w, ew, sw, vw, _, pw⟩ := taylorT2_spec (F := F) (S := S) (b := b) k input 0 (by omega) (by omega) hV
    rw [ek, ok_bind, h4, ew, ok_bind]
    obtain ⟨⟨r0, r1⟩, er, z0, z1, hr⟩ := forStep_inv (a := 0) (b := 4 * 2 ^ k) (st := 2) (s := (g0, g1)) (f := fun i s => do
        let x ← rd w i
        let g0 ← wr s.1 (i / 2) x
        let y ← rd w (i + 1)
        let g1 ← wr s.2 (i / 2) y
        pure (g0, g1))
      (I := fun l (s : Array Nat × Array Nat) => s.1.size = g0.size ∧ s.2.size = g1.size ∧
        ∀ i, i < 2 * l → il s.1 s.2 i = gt w i)
      (by norm_num) ⟨rfl, rfl, fun i hi => by omega⟩ (by
        rintro l ⟨a0, a1⟩ hl ⟨i1, i2, i3⟩
        simp only at i1 i2 i3 ⊢
        have hl2 : 0 + l * 2 < 4 * 2 ^ k := hl
        have hd : (0 + l * 2) / 2 = l := by omega
        refine ⟨_, by rw [rd_gt (by omega), ok_bind, wr_ok (by omega), ok_bind, rd_gt (by omega), ok_bind, wr_ok (by omega), ok_bind]; rfl,
          by simp [i1], by simp [i2], fun i hi' => ?_⟩
        simp only
        rw [hd]
        by_cases hlt : i < 2 * l
        · rw [← i3 i hlt]
          unfold il
          rw [gt_set (by omega), if_neg (show ¬ i / 2 = l by omega), gt_set (by omega), if_neg (show ¬ i / 2 = l by omega)]
        · unfold il
          rcases (show i = 2 * l ∨ i = 2 * l + 1 by omega) with rfl | rfl
          · rw [if_pos (by omega), gt_set (by omega), if_pos (by omega)]; congr 1; omega
          · rw [if_neg (by omega), gt_set (by omega), if_pos (by omega)]; congr 1; omega)
    have hst : stride 0 (4 * 2 ^ k) 2 = 2 * 2 ^ k := by unfold stride; omega
    rw [hst] at hr
    simp only at z0 z1 hr
    refine ⟨w, r0, r1, by rw [er]; rfl, z0, z1, fun i hi' => by rw [hr i (by omega)]; exact vw i, ?_⟩
    rw [polyOf_eq, hi, h4]
    have e1 : tPoly 2 (fun i => S.φ (il r0 r1 i)) (4 * 2 ^ k) = tPoly 2 (seg S w 0) (4 * 2 ^ k) :=
      tPoly_congr fun i hi' => by rw [hr i (by omega)]; unfold seg; rw [zero_add]
    rw [e1, pw]
    exact cPoly_congr fun i _ => by unfold seg; rw [zero_add]

theorem inv_taylor_expand_t2_spec [CharP K 2] (hF : S.Full) {e : Nat} {g0 g1 output : Array Nat} (ho : output.size = 2 ^ e)
    (hg : g0.size = g1.size) (h0 : 2 ^ e ≤ 2 * g0.size) (hV : ∀ i, i < 2 ^ e → S.V (il g0 g1 i)) :
    ∃ r, inv_taylor_expand_t2 F g0 g1 output = .ok r ∧ r.size = 2 ^ e ∧ AllV S r ∧
      polyOf S r = tPoly 2 (fun i => S.φ (il g0 g1 i)) (2 ^ e) := by
  have hpos : 0 < 2 ^ e := by positivity
  have hv0 : ∀ i, i < (2 ^ e + 1) / 2 → S.V (gt g0 i) := by
    intro i hi
    have := hV (2 * i) (by omega)
    unfold il at this
    rwa [if_pos (by omega), Nat.mul_div_cancel_left _ (by omega)] at this
  have hv1 : ∀ i, i < 2 ^ e / 2 → S.V (gt g1 i) := by
    intro i hi
    have := hV (2 * i + 1) (by omega)
    unfold il at this
    rwa [if_neg (by omega), show (2 * i + 1) / 2 = i by omega] at this
  unfold inv_taylor_expand_t2
  simp only [cassert, hg, ho, is_pow, decide_true, if_true, ok_bind]
  by_cases h2 : 2 ^ e ≤ 2
  · rw [if_pos h2, rd_gt (by omega), ok_bind, wr_ok (by omega), ok_bind]
    by_cases h2' : 2 ^ e = 2
    · rw [if_pos h2', rd_gt (by omega), ok_bind, wr_ok (by simp; omega)]
      have hgt : ∀ i, i < 2 → gt ((output.setIfInBounds 0 (gt g0 0)).setIfInBounds 1 (gt g1 0)) i = il g0 g1 i := by
        intro i hi
        unfold il
        rw [gt_set (by simp; omega), gt_set (by omega)]
        rcases (show i = 0 ∨ i = 1 by omega) with rfl | rfl <;> simp
      refine ⟨_, rfl, by simp; omega, fun i => ?_, ?_⟩
      · by_cases hi : i < 2
        · rw [hgt i hi]; exact hV i (by omega)
        · rw [gt_oob (by simp; omega)]; exact S.zero.1
      · rw [polyOf_eq, tPoly_small _ h2]
        simp only [size_set, ho]
        exact cPoly_congr fun i hi => by rw [hgt i (by omega)]
    · rw [if_neg h2']
      refine ⟨_, rfl, by simp; omega, fun i => ?_, ?_⟩
      · by_cases hi : i < 1
        · obtain rfl : i = 0 := by omega
          rw [gt_set (by omega), if_pos rfl]; exact hv0 0 (by omega)
        · rw [gt_oob (by simp; omega)]; exact S.zero.1
      · rw [polyOf_eq, tPoly_small _ h2]
        simp only [size_set, ho]
        refine cPoly_congr fun i hi => ?_
        obtain rfl : i = 0 := by omega
        rw [gt_set (by omega), if_pos rfl]; rfl
  · rw [if_neg h2]
    obtain ⟨M, hM⟩ : ∃ M, 2 ^ e = 2 * M := by
      have he : 1 ≤ e := by
        by_contra hc
        obtain rfl : e = 0 := by omega
        norm_num at h2
      exact ⟨2 ^ (e - 1), by rw [← pow_succ']; congr 1; omega⟩
    have hM2 : 2 ^ e / 2 = M := by omega
    rw [hM2, rd_gt (by omega), ok_bind, wr_ok (by simp), ok_bind, rd_gt (by omega), ok_bind, wr_ok (by simp only [size_set, Array.size_replicate]; omega), ok_bind]
    obtain ⟨v0, hv0'⟩ : ∃ v0, v0 = ((Array.replicate (2 ^ e) 0).setIfInBounds 0 (gt g0 (M - 1))).setIfInBounds 1 (gt g1 (M - 1)) := ⟨_, rfl⟩
    have hs0 : v0.size = 2 ^ e := by rw [hv0']; simp
    have hgt0 : ∀ j, gt v0 j = if j = 1 then gt g1 (M - 1) else if j = 0 then gt g0 (M - 1) else 0 := by
      intro j
      rw [hv0', gt_set (by simp only [size_set, Array.size_replicate]; omega), gt_set (by simp), replicate_zero_gt]
    rw [← hv0']
    obtain ⟨r, er, sr, vr, zr, pr⟩ := forN_inv (n := M - 1) (s := v0) (f := fun s output => do
        let j := M - 1 - 1 - s
        let output ← mul_xt_x F output 2
        let x ← rd g0 j
        let output ← wr output 0 x
        let y ← rd g1 j
        if y > 0 then do
          let z ← rd output 1
          wr output 1 (F.add z y)
        else pure output)
      (I := fun s (v : Array Nat) => v.size = 2 ^ e ∧ AllV S v ∧ (∀ j, (s + 1) * 2 ≤ j → gt v j = 0) ∧
        polyOf S v = tPoly 2 (fun i => S.φ (il g0 g1 (2 * (M - 1 - s) + i))) ((s + 1) * 2))
      ⟨hs0, fun j => by
        rw [hgt0]; split
        · exact hv1 _ (by omega)
        · split
          · exact hv0 _ (by omega)
          · exact S.zero.1, fun j hj => by rw [hgt0, if_neg (by omega), if_neg (by omega)], by
        rw [zero_add, one_mul, tPoly_small _ le_rfl, polyOf_eq, cPoly_zero_tail (m := 2) (by omega)
          (fun i h1 _ => by rw [hgt0, if_neg (by omega), if_neg (by omega), S.zero.2])]
        refine cPoly_congr fun i hi => ?_
        rw [hgt0]
        unfold il
        rcases (show i = 0 ∨ i = 1 by omega) with rfl | rfl
        · rw [if_neg (by omega), if_pos rfl, if_pos (by omega)]; congr 2; omega
        · rw [if_pos rfl, if_neg (by omega)]; congr 2; omega⟩ (by
        rintro s v hs ⟨i1, i2, i3, i4⟩
        obtain ⟨r1, er1, sr1, vr1, zr1, pr1⟩ := mul_xt_x_spec (F := F) (S := S) (v := v) (t := 2) (L := (s + 1) * 2) le_rfl (by omega) i2 i3
        have hg1' : gt r1 0 = 0 := by
          have : S.φ (gt r1 0) = 0 := by
            rw [← polyOf_coeff, pr1, mul_coeff_zero]; simp
          exact (hF.eq_zero (vr1 0)).1 this
        set j := M - 1 - 1 - s with hj
        have hVx := hv0 j (by omega)
        have hVy := hv1 j (by omega)
        -- the final array
        have hfin : ∃ r2, (if gt g1 j > 0 then (do
              let z ← rd (r1.setIfInBounds 0 (gt g0 j)) 1
              wr (r1.setIfInBounds 0 (gt g0 j)) 1 (F.add z (gt g1 j)))
            else pure (r1.setIfInBounds 0 (gt g0 j)) : Res (Array Nat)) = .ok r2 ∧ r2.size = r1.size ∧ AllV S r2 ∧
              (∀ i, 2 ≤ i → gt r2 i = gt r1 i) ∧ gt r2 0 = gt g0 j ∧ S.φ (gt r2 1) = S.φ (gt r1 1) + S.φ (gt g1 j) := by
          have hs : (r1.setIfInBounds 0 (gt g0 j)).size = r1.size := by simp
          have hw : ∀ i, gt (r1.setIfInBounds 0 (gt g0 j)) i = if i = 0 then gt g0 j else gt r1 i := fun i => gt_set (by omega)
          by_cases hy : gt g1 j > 0
          · rw [if_pos hy, rd_gt (by omega), ok_bind, wr_ok (by omega)]
            refine ⟨_, rfl, by simp, fun i => ?_, fun i hi => ?_, ?_, ?_⟩
            · rw [gt_set (by omega), hw, hw, if_neg (show ¬ 1 = 0 by omega)]
              split
              · exact (S.add (vr1 _) hVy).1
              · split
                · exact hVx
                · exact vr1 _
            · rw [gt_set (by omega), if_neg (by omega), hw, if_neg (by omega)]
            · rw [gt_set (by omega), if_neg (by omega), hw, if_pos rfl]
            · rw [gt_set (by omega), if_pos rfl, hw, if_neg (by omega), (S.add (vr1 _) hVy).2]
          · rw [if_neg hy]
            refine ⟨_, rfl, hs, fun i => ?_, fun i hi => ?_, ?_, ?_⟩
            · rw [hw]; split
              · exact hVx
              · exact vr1 _
            · rw [hw, if_neg (by omega)]
            · rw [hw, if_pos rfl]
            · rw [hw, if_neg (by omega), show gt g1 j = 0 by omega, S.zero.2, add_zero]
        obtain ⟨r2, er2, sr2, vr2, zr2, x0, x1⟩ := hfin
        refine ⟨r2, by rw [er1, ok_bind, rd_gt (by omega), ok_bind, wr_ok (by omega), ok_bind, rd_gt (by omega), ok_bind, er2], by omega, vr2,
          fun i hi => ?_, ?_⟩
        · rw [zr2 i (by omega)]
          rcases zr1 i (by omega) with h | h
          · exact h
          · exact (hF.eq_zero (vr1 i)).1 h
        · have hsum : polyOf S r2 = polyOf S r1 + cPoly (fun i => S.φ (il g0 g1 (2 * j + i))) 2 := by
            ext i
            have hc : (cPoly (fun i => S.φ (il g0 g1 (2 * j + i))) 2).coeff i = if i < 2 then S.φ (il g0 g1 (2 * j + i)) else 0 := by
              unfold cPoly
              simp [Polynomial.finset_sum_coeff, coeff_C_mul, coeff_X_pow]
            rw [coeff_add, polyOf_coeff, polyOf_coeff, hc]
            by_cases hi : i < 2
            · rw [if_pos hi]
              unfold il
              rcases (show i = 0 ∨ i = 1 by omega) with rfl | rfl
              · rw [x0, hg1', S.zero.2, zero_add, if_pos (by omega)]; congr 2; omega
              · rw [x1, if_neg (by omega)]; congr 3; omega
            · rw [if_neg hi, zr2 i (by omega), add_zero]
          rw [hsum, pr1, i4]
          have h2 := tPoly_add (K := K) (t := 2) (by omega) (fun i => S.φ (il g0 g1 (2 * j + i))) 1 ((s + 1) * 2)
          rw [mul_one, pow_one, tPoly_small _ le_rfl] at h2
          rw [show M - 1 - (s + 1) = j by omega, show (s + 1 + 1) * 2 = 2 + (s + 1) * 2 by ring, h2, add_comm]
          congr 1
          rw [mul_comm]
          congr 1
          refine tPoly_congr fun i _ => ?_
          congr 2; omega)
    refine ⟨r, er, sr, vr, ?_⟩
    rw [pr, show M - 1 + 1 = M by omega, Nat.sub_self, hM, mul_comm M 2]
    simp

end Additive
end Quad
