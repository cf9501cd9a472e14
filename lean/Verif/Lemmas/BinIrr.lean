import Mathlib.FieldTheory.Finite.Extension
import Verif.Lemmas.BinPoly

/-!
Irreducibility of the polynomials of the binary fields, from certificates.
-/

namespace Quad
open Polynomial

/-- multiplication by `x` modulo `x^n + low` -/
def dbl (n low x : Nat) : Nat := if 2 ^ (n - 1) ≤ x then (2 * x - 2 ^ n) ^^^ low else 2 * x

/-- product of `a` and the `k` low bits of `c` modulo `x^n + low` -/
def mm (n low : Nat) : Nat → Nat → Nat → Nat
  | 0, _, _ => 0
  | k + 1, a, c => (if c % 2 = 1 then a else 0) ^^^ mm n low k (dbl n low a) (c / 2)

/-- `k` squarings -/
def sqs (n low : Nat) : Nat → Nat → Nat
  | 0, a => a
  | k + 1, a => sqs n low k (mm n low n a a)

section
variable {K : Type*} [CommRing K] [CharP K 2] {r : K} {n low : Nat}

theorem sub_pow_eq_xor {n x : Nat} (h1 : 2 ^ n ≤ x) (h2 : x < 2 ^ (n + 1)) : x - 2 ^ n = x ^^^ 2 ^ n := by
  have hx : x = 2 ^ n + (x - 2 ^ n) := by omega
  have hlt : x - 2 ^ n < 2 ^ n := by rw [pow_succ] at h2; omega
  have : x = 2 ^ n ^^^ (x - 2 ^ n) := by
    conv_lhs => rw [hx]
    apply Nat.eq_of_testBit_eq
    intro i
    rw [Nat.testBit_xor]
    rcases Nat.lt_trichotomy i n with hi | hi | hi
    · rw [Nat.testBit_two_pow_add_gt hi]
      simp [Nat.testBit_two_pow, show n ≠ i by omega]
    · subst hi
      rw [Nat.testBit_two_pow_add_eq]
      simp [Nat.testBit_lt_two_pow hlt]
    · rw [Nat.testBit_lt_two_pow (lt_of_lt_of_le (show 2 ^ n + (x - 2 ^ n) < 2 ^ (n + 1) by omega) (Nat.pow_le_pow_right (by omega) (by omega)))]
      simp [Nat.testBit_two_pow, show n ≠ i by omega,
        Nat.testBit_lt_two_pow (lt_of_lt_of_le hlt (Nat.pow_le_pow_right (by omega) hi.le))]
  conv_rhs => rw [this]
  rw [Nat.xor_comm (2 ^ n), Nat.xor_assoc, Nat.xor_self, Nat.xor_zero]

theorem dbl_spec (hn : 0 < n) (hl : low < 2 ^ n) (hr : r ^ n = bev r low) {x : Nat} (hx : x < 2 ^ n) :
    dbl n low x < 2 ^ n ∧ bev r (dbl n low x) = r * bev r x := by
  obtain ⟨m, rfl⟩ : ∃ m, n = m + 1 := ⟨n - 1, by omega⟩
  unfold dbl
  rw [Nat.add_sub_cancel]
  have h2 : (2 : Nat) ^ (m + 1) = 2 * 2 ^ m := by ring
  split
  · rename_i h
    refine ⟨Nat.xor_lt_two_pow (by omega) hl, ?_⟩
    rw [sub_pow_eq_xor (by omega) (by rw [pow_succ]; omega), bev_xor, bev_xor, bev_two_mul, bev_pow, hr, add_assoc,
      CharTwo.add_self_eq_zero, add_zero]
  · exact ⟨by omega, bev_two_mul _ _⟩

theorem mm_spec (hn : 0 < n) (hl : low < 2 ^ n) (hr : r ^ n = bev r low) : ∀ k a c, a < 2 ^ n → c < 2 ^ k →
    mm n low k a c < 2 ^ n ∧ bev r (mm n low k a c) = bev r a * bev r c := by
  intro k
  induction k with
  | zero =>
    intro a c _ hc
    have : c = 0 := by simpa using hc
    subst this
    exact ⟨by simp [mm], by simp [mm]⟩
  | succ k ih =>
    intro a c ha hc
    obtain ⟨d1, d2⟩ := dbl_spec (r := r) hn hl hr ha
    obtain ⟨i1, i2⟩ := ih _ (c / 2) d1 (by rw [pow_succ] at hc; omega)
    unfold mm
    refine ⟨Nat.xor_lt_two_pow (by split <;> [exact ha; positivity]) i1, ?_⟩
    rw [bev_xor, i2, d2, bev_step r c]
    split
    · ring
    · rw [bev_zero]; ring

theorem sqs_spec (hn : 0 < n) (hl : low < 2 ^ n) (hr : r ^ n = bev r low) : ∀ k a, a < 2 ^ n →
    sqs n low k a < 2 ^ n ∧ bev r (sqs n low k a) = bev r a ^ 2 ^ k := by
  intro k
  induction k with
  | zero => intro a ha; exact ⟨ha, by simp [sqs]⟩
  | succ k ih =>
    intro a ha
    obtain ⟨m1, m2⟩ := mm_spec hn hl hr n a a ha ha
    obtain ⟨i1, i2⟩ := ih _ m1
    refine ⟨i1, ?_⟩
    unfold sqs
    rw [i2, m2, ← pow_two, ← pow_mul]
    congr 1
    ring

end

/-! ### polynomials -/

theorem bev_degree {a k : Nat} (h : a < 2 ^ k) : (bev (X : (ZMod 2)[X]) a).degree < k := by
  induction k generalizing a with
  | zero =>
    have : a = 0 := by simpa using h
    subst this
    simp
  | succ k ih =>
    rw [bev_step]
    have h1 := ih (a := a / 2) (by rw [pow_succ] at h; omega)
    refine lt_of_le_of_lt (degree_add_le _ _) (max_lt ?_ ?_)
    · split
      · rw [degree_one]; exact_mod_cast Nat.succ_pos k
      · rw [degree_zero]; exact WithBot.bot_lt_coe _
    · rw [degree_mul, degree_X]
      by_cases h0 : bev (X : (ZMod 2)[X]) (a / 2) = 0
      · rw [h0, degree_zero, WithBot.add_bot]; exact WithBot.bot_lt_coe _
      · rw [degree_eq_natDegree h0] at h1 ⊢
        have : (bev (X : (ZMod 2)[X]) (a / 2)).natDegree < k := by exact_mod_cast h1
        exact_mod_cast (show 1 + (bev (X : (ZMod 2)[X]) (a / 2)).natDegree < k + 1 by omega)

theorem bev_X_inj {a : Nat} (h : bev (X : (ZMod 2)[X]) a = 0) : a = 0 := by
  induction a using Nat.strong_induction_on with
  | _ a ih =>
    by_contra h0
    rw [bev_step] at h
    have h1 := congrArg (fun p => Polynomial.coeff p 0) h
    simp only [coeff_add, coeff_X_mul_zero, add_zero, coeff_zero] at h1
    have h2 : a % 2 = 0 := by
      by_contra h3
      rw [if_pos (by omega), coeff_one_zero] at h1
      exact one_ne_zero h1
    rw [if_neg (by omega), zero_add] at h
    have := ih (a / 2) (by omega) ((mul_eq_zero.mp h).resolve_left X_ne_zero)
    omega

/-- the polynomial `x^n + low` -/
noncomputable def binPoly (n low : Nat) : (ZMod 2)[X] := X ^ n + bev X low

theorem binPoly_monic {n low : Nat} (hl : low < 2 ^ n) : (binPoly n low).Monic := monic_X_pow_add (bev_degree hl)

theorem binPoly_natDegree {n low : Nat} (hl : low < 2 ^ n) : (binPoly n low).natDegree = n := by
  unfold binPoly
  rw [natDegree_add_eq_left_of_degree_lt, natDegree_X_pow]
  rw [degree_X_pow]; exact bev_degree hl

theorem charTwo_of_alg {L : Type*} [CommRing L] [Nontrivial L] [Algebra (ZMod 2) L] : CharP L 2 :=
  charP_of_injective_algebraMap (algebraMap (ZMod 2) L).injective 2

theorem binPoly_aeval {L : Type*} [CommRing L] [Nontrivial L] [Algebra (ZMod 2) L] (n low : Nat) (r : L) :
    aeval r (binPoly n low) = r ^ n + bev r low := by
  unfold binPoly
  have := map_bev X (aeval (R := ZMod 2) r).toRingHom low
  rw [map_add, map_pow, aeval_X]
  refine congrArg (r ^ n + ·) (this.trans ?_)
  show bev (aeval r X) low = _
  rw [aeval_X]

theorem red_of_root {L : Type*} [CommRing L] [Nontrivial L] [Algebra (ZMod 2) L] {n low : Nat} {r : L}
    (h : aeval r (binPoly n low) = 0) : r ^ n = bev r low := by
  haveI : CharP L 2 := charTwo_of_alg
  rw [binPoly_aeval] at h
  exact CharTwo.add_eq_zero.mp h

/-- `m` is a multiple of every proper divisor of `n` -/
theorem binPoly_irreducible {n low m u : Nat} (hn : 1 < n) (hl : low < 2 ^ n) (hm : m ≠ 0) (hd : ∀ d, d ∣ n → d ≠ n → d ∣ m)
    (hu : u < 2 ^ n) (h1 : sqs n low n 2 = 2) (h3 : mm n low n (sqs n low m 2 ^^^ 2) u = 1) : Irreducible (binPoly n low) := by
  have h2 : 2 < 2 ^ n := lt_of_lt_of_le (by norm_num) (Nat.pow_le_pow_right (n := 2) (by norm_num) hn)
  have hf0 : binPoly n low ≠ 0 := (binPoly_monic hl).ne_zero
  have hfu : ¬ IsUnit (binPoly n low) := by
    intro h
    have := natDegree_eq_zero_of_isUnit h
    rw [binPoly_natDegree hl] at this
    omega
  obtain ⟨g, hg, hgf⟩ := WfDvdMonoid.exists_irreducible_factor hfu hf0
  haveI : Fact (Irreducible g) := ⟨hg⟩
  haveI : CharP (AdjoinRoot g) 2 := charTwo_of_alg
  set r := AdjoinRoot.root g with hrd
  have key : ∀ p : (ZMod 2)[X], aeval r p = 0 ↔ g ∣ p := by
    intro p
    rw [AdjoinRoot.aeval_eq, AdjoinRoot.mk_eq_zero]
  have hr : r ^ n = bev r low := red_of_root ((key _).mpr hgf)
  have hb2 : bev r 2 = r := by
    have := bev_two_mul r 1
    rw [bev_one] at this
    exact this.trans (mul_one r)
  have hrn : r ^ 2 ^ n = r := by
    have := (sqs_spec (r := r) (by omega) hl hr n 2 h2).2
    rw [h1, hb2] at this
    exact this.symm
  have hdv : ∀ k, k ≠ 0 → (g.natDegree ∣ k ↔ r ^ 2 ^ k = r) := by
    intro k hk
    have := hg.natDegree_dvd_iff_dvd_X_pow_card_pow_sub_X (n := k)
    rw [this, ← key, map_sub, map_pow, aeval_X, Nat.card_zmod, sub_eq_zero]
  have hgn : g.natDegree ∣ n := (hdv n (by omega)).mpr hrn
  have hgn' : g.natDegree = n := by
    by_contra hne
    have hrm := (hdv m hm).mp (hd _ hgn hne)
    have hs := sqs_spec (r := r) (by omega) hl hr m 2 h2
    rw [hb2, hrm] at hs
    have hmm := (mm_spec (r := r) (by omega) hl hr n (sqs n low m 2 ^^^ 2) u (Nat.xor_lt_two_pow hs.1 h2) hu).2
    rw [h3, bev_xor, hs.2, hb2, CharTwo.add_self_eq_zero, zero_mul, bev_one] at hmm
    exact one_ne_zero hmm
  have : Associated g (binPoly n low) := by
    obtain ⟨c, hc⟩ := hgf
    have hc0 : c ≠ 0 := by rintro rfl; rw [mul_zero] at hc; exact hf0 hc
    have hdeg := binPoly_natDegree (n := n) hl
    rw [hc, natDegree_mul hg.ne_zero hc0, hgn'] at hdeg
    have hcu : IsUnit c := by
      rw [isUnit_iff_degree_eq_zero, degree_eq_natDegree hc0, show c.natDegree = 0 by omega]
      rfl
    rw [hc]
    exact associated_mul_unit_right g c hcu
  exact this.irreducible hg

end Quad
