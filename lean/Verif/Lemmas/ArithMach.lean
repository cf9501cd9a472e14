import Verif.Lemmas.ArithNT

/-!
# `extended_gcd` and `chinese_remainder` on machine integers

The computation on a bounded type agrees with the one on integers without bound.
-/

namespace Quad.Arith

theorem res_bind_ok {α β : Type} {x : Res α} {f : α → Res β} {b : β} (h : (x >>= f) = .ok b) :
    ∃ a, x = .ok a ∧ f a = .ok b := by
  cases x with
  | error e => cases h
  | ok a => exact ⟨a, rfl, h⟩

/-! ## One step of the loop -/

theorem tdiv_step (x r : Int) (hr : r ≠ 0) :
    0 ≤ Int.tdiv x r * x * r ∧ 0 ≤ (x - Int.tdiv x r * r) * x ∧
      |x| = |Int.tdiv x r| * |r| + |x - Int.tdiv x r * r| ∧ |x - Int.tdiv x r * r| < |r| := by
  have hm : x - Int.tdiv x r * r = Int.tmod x r := by
    have := Int.tdiv_mul_add_tmod x r; linarith
  rw [hm]
  have h1 : (Int.tdiv x r).natAbs = x.natAbs / r.natAbs := Int.natAbs_tdiv x r
  have h2 : (Int.tmod x r).natAbs = x.natAbs % r.natAbs := Int.natAbs_tmod x r
  have hrn : 0 < r.natAbs := Int.natAbs_pos.2 hr
  refine ⟨?_, ?_, ?_, ?_⟩
  · rcases le_total 0 x with hx | hx <;> rcases le_total 0 r with hr' | hr'
    · exact mul_nonneg (mul_nonneg (Int.tdiv_nonneg hx hr') hx) hr'
    · have := Int.tdiv_nonpos_of_nonneg_of_nonpos hx hr'
      exact mul_nonneg_of_nonpos_of_nonpos (mul_nonpos_of_nonpos_of_nonneg this hx) hr'
    · have : Int.tdiv x r ≤ 0 := by
        have h := Int.tdiv_nonneg (show 0 ≤ -x by omega) hr'
        rw [Int.neg_tdiv] at h; omega
      exact mul_nonneg (mul_nonneg_of_nonpos_of_nonpos this hx) hr'
    · have := Int.tdiv_nonneg_of_nonpos_of_nonpos hx hr'
      exact mul_nonneg_of_nonpos_of_nonpos (mul_nonpos_of_nonneg_of_nonpos this hx) hr'
  · rcases le_total 0 x with hx | hx
    · exact mul_nonneg (Int.tmod_nonneg _ hx) hx
    · have : Int.tmod x r ≤ 0 := by
        have h := Int.tmod_nonneg r (show 0 ≤ -x by omega)
        rw [Int.neg_tmod] at h; omega
      exact mul_nonneg_of_nonpos_of_nonpos this hx
  · rw [Int.abs_eq_natAbs, Int.abs_eq_natAbs, Int.abs_eq_natAbs, Int.abs_eq_natAbs, h1, h2]
    have := Nat.div_add_mod x.natAbs r.natAbs
    rw [mul_comm] at this
    exact_mod_cast this.symm
  · rw [Int.abs_eq_natAbs, Int.abs_eq_natAbs, h2]
    exact_mod_cast Nat.mod_lt _ hrn

/-- coefficients of opposite "phase": the two products do not have the same sign -/
theorem coef_step {x r s0 s : Int} (hr : r ≠ 0) (h : s0 * s * x * r ≤ 0) :
    |s0 - Int.tdiv x r * s| = |s0| + |Int.tdiv x r| * |s| ∧
      s * (s0 - Int.tdiv x r * s) * r * (x - Int.tdiv x r * r) ≤ 0 ∧
      |s| * |x - Int.tdiv x r * r| + |s0 - Int.tdiv x r * s| * |r| = |s0| * |r| + |s| * |x| := by
  obtain ⟨h1, h2, h3, h4⟩ := tdiv_step x r hr
  generalize Int.tdiv x r = q at *
  have ha : |s0 - q * s| = |s0| + |q| * |s| := by
    rw [← abs_mul]
    have hs : s0 * (q * s) ≤ 0 := by
      by_contra hc
      push Not at hc
      have hx : x ≠ 0 := by
        rintro rfl
        have : |q| * |r| = 0 := by
          have := abs_nonneg (0 - q * r)
          have := mul_nonneg (abs_nonneg q) (abs_nonneg r)
          simp only [abs_zero] at h3
          omega
        rcases mul_eq_zero.1 this with h | h
        · rw [abs_eq_zero.1 h] at hc; simp at hc
        · exact hr (abs_eq_zero.1 h)
      have hxr : 0 < (x * r) * (x * r) := mul_self_pos.2 (mul_ne_zero hx hr)
      have e : (s0 * (q * s)) * ((x * r) * (x * r)) = (s0 * s * x * r) * (q * x * r) := by ring
      have : 0 < (s0 * (q * s)) * ((x * r) * (x * r)) := mul_pos hc hxr
      rw [e] at this
      have := mul_nonpos_of_nonpos_of_nonneg h h1
      omega
    rcases le_total 0 s0 with a | a <;> rcases le_total 0 (q * s) with b | b
    · have : s0 = 0 ∨ q * s = 0 := by
        have := mul_nonneg a b
        exact mul_eq_zero.1 (le_antisymm hs this)
      rcases this with e | e <;> simp [e]
    · rw [abs_of_nonneg a, abs_of_nonpos b, abs_of_nonneg (by omega)]; ring
    · rw [abs_of_nonpos a, abs_of_nonneg b, abs_of_nonpos (by omega)]; ring
    · have : s0 = 0 ∨ q * s = 0 := by
        have := mul_nonneg_of_nonpos_of_nonpos a b
        exact mul_eq_zero.1 (le_antisymm hs this)
      rcases this with e | e <;> simp [e]
  refine ⟨ha, ?_, ?_⟩
  · by_cases hx : x = 0
    · subst hx
      have h0 : |0 - q * r| = 0 := by
        have := abs_nonneg (0 - q * r)
        have := mul_nonneg (abs_nonneg q) (abs_nonneg r)
        simp only [abs_zero] at h3
        omega
      rw [abs_eq_zero.1 h0, mul_zero]
    · by_contra hc
      push Not at hc
      have hxx : 0 < x * x := mul_self_pos.2 hx
      have e : (s * (s0 - q * s) * r * (x - q * r)) * (x * x) =
          (s0 * s * x * r) * ((x - q * r) * x) - (s * s) * ((q * x * r) * ((x - q * r) * x)) := by ring
      have h5 := mul_pos hc hxx
      rw [e] at h5
      have := mul_nonpos_of_nonpos_of_nonneg h h2
      have := mul_nonneg (mul_self_nonneg s) (mul_nonneg h1 h2)
      omega
  · rw [ha]
    linear_combination (-|s|) * h3

/-- invariant of the loop that bounds its values -/
structure MI (a c : Int) (st : EGcd) : Prop where
  consS : |st.oldS| * |st.r| + |st.s| * |st.oldR| = |c|
  consT : |st.oldT| * |st.r| + |st.t| * |st.oldR| = |a|
  sgnS : st.oldS * st.s * st.oldR * st.r ≤ 0
  sgnT : st.oldT * st.t * st.oldR * st.r ≤ 0

theorem MI.init (a c : Int) : MI a c { oldR := a, r := c, oldS := 1, s := 0, oldT := 0, t := 1 } :=
  ⟨by simp, by simp, by simp, by simp⟩

theorem MI.step {a c : Int} {st : EGcd} (h : MI a c st) (hr : st.r ≠ 0) :
    MI a c { oldR := st.r, r := st.oldR - Int.tdiv st.oldR st.r * st.r
             oldS := st.s, s := st.oldS - Int.tdiv st.oldR st.r * st.s
             oldT := st.t, t := st.oldT - Int.tdiv st.oldR st.r * st.t } := by
  obtain ⟨_, a2, a3⟩ := coef_step hr h.sgnS
  obtain ⟨_, b2, b3⟩ := coef_step hr h.sgnT
  exact ⟨a3.trans h.consS, b3.trans h.consT, a2, b2⟩

/-- all the values computed in a step are at most as large as the arguments -/
theorem MI.bounds {a c B : Int} {st : EGcd} (h : MI a c st) (hr : st.r ≠ 0) (h1 : |st.oldR| ≤ B) (h2 : |st.r| ≤ B)
    (ha : |a| ≤ B) (hc : |c| ≤ B) :
    |Int.tdiv st.oldR st.r| ≤ B ∧
    |Int.tdiv st.oldR st.r * st.r| ≤ B ∧ |st.oldR - Int.tdiv st.oldR st.r * st.r| ≤ B ∧
    |Int.tdiv st.oldR st.r * st.s| ≤ B ∧ |st.oldS - Int.tdiv st.oldR st.r * st.s| ≤ B ∧
    |Int.tdiv st.oldR st.r * st.t| ≤ B ∧ |st.oldT - Int.tdiv st.oldR st.r * st.t| ≤ B := by
  obtain ⟨_, _, t3, t4⟩ := tdiv_step st.oldR st.r hr
  obtain ⟨a1, _, a3⟩ := coef_step hr h.sgnS
  obtain ⟨b1, _, b3⟩ := coef_step hr h.sgnT
  rw [h.consS] at a3
  rw [h.consT] at b3
  have hr1 : 1 ≤ |st.r| := Int.one_le_abs hr
  rw [abs_mul, abs_mul, abs_mul]
  generalize hq : |Int.tdiv st.oldR st.r| = q at *
  generalize st.oldR - Int.tdiv st.oldR st.r * st.r = r1 at *
  generalize st.oldS - Int.tdiv st.oldR st.r * st.s = s1 at *
  generalize st.oldT - Int.tdiv st.oldR st.r * st.t = t1 at *
  have q0 : 0 ≤ q := by rw [← hq]; exact abs_nonneg _
  have n1 := abs_nonneg r1
  have n2 := abs_nonneg st.oldS
  have n3 := abs_nonneg st.oldT
  have n4 := abs_nonneg s1
  have n5 := abs_nonneg t1
  have n6 := abs_nonneg st.s
  have n7 := abs_nonneg st.t
  have k1 := mul_le_mul_of_nonneg_left hr1 q0
  have k2 := mul_le_mul_of_nonneg_left hr1 n4
  have k3 := mul_le_mul_of_nonneg_left hr1 n5
  have k4 := mul_nonneg n6 n1
  have k5 := mul_nonneg n7 n1
  rw [mul_one] at k1 k2 k3
  refine ⟨?_, ?_, ?_, ?_, ?_, ?_, ?_⟩ <;> linarith

/-- a type on which values up to `B` are exact -/
def SInt.Holds (S : SInt) (B : Int) : Prop := ∀ x : Int, |x| ≤ B → S.norm x = .ok x

theorem SInt.holds_signed {w : Nat} {B : Int} (h : B < 2 ^ (w - 1)) : (SInt.signed w).Holds B := by
  intro x hx
  rw [abs_le] at hx
  simp only [SInt.norm]
  rw [if_pos]
  constructor
  · have := hx.1; linarith
  · have := hx.2; linarith

theorem egcdLoop_eq {S : SInt} {a c B : Int} (hS : S.Holds B) (ha : |a| ≤ B) (hc : |c| ≤ B) :
    ∀ (fuel : Nat) (st : EGcd), MI a c st → |st.oldR| ≤ B → |st.r| ≤ B →
      egcdLoop S fuel st = egcdLoopZ fuel st := by
  intro fuel
  induction fuel with
  | zero => intro st _ _ _; rfl
  | succ f ih =>
    intro st h h1 h2
    unfold egcdLoop egcdLoopZ
    split
    · rfl
    · rename_i hr
      obtain ⟨e1, e2, e3, e4, e5, e6, e7⟩ := h.bounds hr h1 h2 ha hc
      simp only [SInt.subMul, hS _ e1, hS _ e2, hS _ e3, hS _ e4, hS _ e5, hS _ e6, hS _ e7, ok_bind]
      exact ih _ (h.step hr) h2 e3

theorem extended_gcd_eq {S : SInt} {a c B : Int} (hS : S.Holds B) (ha : |a| ≤ B) (hc : |c| ≤ B) :
    extended_gcd S a c = extended_gcdZ a c :=
  egcdLoop_eq hS ha hc _ _ (MI.init a c) ha hc

theorem extended_gcd_spec {S : SInt} {a c B : Int} (hS : S.Holds B) (ha : |a| ≤ B) (hc : |c| ≤ B) :
    ∃ st, extended_gcd S a c = .ok st ∧ EInv a c st ∧ st.r = 0 := by
  rw [extended_gcd_eq hS ha hc]; exact extended_gcdZ_spec a c

theorem egcdLoopZ_MI {a c : Int} : ∀ (fuel : Nat) (st st' : EGcd), MI a c st → egcdLoopZ fuel st = .ok st' → MI a c st' := by
  intro fuel
  induction fuel with
  | zero =>
    intro st st' h e
    unfold egcdLoopZ at e
    split at e
    · cases e; exact h
    · cases e
  | succ f ih =>
    intro st st' h e
    unfold egcdLoopZ at e
    split at e
    · cases e; exact h
    · rename_i hr
      exact ih _ st' (h.step hr) e

/-! ## The first coefficient is small -/

theorem egcdLoopZ_half {a c : Int} : ∀ (fuel : Nat) (st st' : EGcd), MI a c st → st.r ≠ 0 →
    (st.s = 0 ∨ |st.r| < |st.oldR|) → egcdLoopZ fuel st = .ok st' → 2 * (|st'.oldS| * |st'.oldR|) ≤ |c| := by
  intro fuel
  induction fuel with
  | zero =>
    intro st st' h hr hj e
    unfold egcdLoopZ at e
    rw [if_neg hr] at e; cases e
  | succ f ih =>
    intro st st' h hr hj e
    unfold egcdLoopZ at e
    rw [if_neg hr] at e
    obtain ⟨_, _, t3, t4⟩ := tdiv_step st.oldR st.r hr
    by_cases h1 : st.oldR - Int.tdiv st.oldR st.r * st.r = 0
    · have e' : st' = { oldR := st.r, r := st.oldR - Int.tdiv st.oldR st.r * st.r
                        oldS := st.s, s := st.oldS - Int.tdiv st.oldR st.r * st.s
                        oldT := st.t, t := st.oldT - Int.tdiv st.oldR st.r * st.t } := by
        simp only at e
        cases f <;> (unfold egcdLoopZ at e; rw [if_pos h1] at e; cases e; rfl)
      subst e'
      simp only
      have hcons := h.consS
      have n2 := mul_nonneg (abs_nonneg st.oldS) (abs_nonneg st.r)
      rcases hj with h0 | hlt
      · rw [h0]; simp
      · rw [h1, abs_zero, add_zero] at t3
        have hrp : 0 < |st.r| := abs_pos.2 hr
        have hq : 2 ≤ |Int.tdiv st.oldR st.r| := by
          by_contra hc
          push Not at hc
          have : |Int.tdiv st.oldR st.r| ≤ 1 := by omega
          have := mul_le_mul_of_nonneg_right this hrp.le
          omega
        have hm := mul_le_mul_of_nonneg_right hq hrp.le
        rw [← t3] at hm
        have := mul_le_mul_of_nonneg_left hm (abs_nonneg st.s)
        linarith [mul_left_comm |st.s| 2 |st.r|]
    · exact ih _ st' (h.step hr) h1 (Or.inr t4) e

theorem extended_gcdZ_half {a c : Int} (hc : c ≠ 0) {st : EGcd} (e : extended_gcdZ a c = .ok st) :
    2 * (|st.oldS| * |st.oldR|) ≤ |c| :=
  egcdLoopZ_half _ _ st (MI.init a c) hc (Or.inl rfl) e

/-! ## `Int256` -/

/-- the low 128 bits of the coefficients -/
def EGcd.low (st : EGcd) : EGcd :=
  { st with oldS := st.oldS % 2 ^ 128, s := st.s % 2 ^ 128, oldT := st.oldT % 2 ^ 128, t := st.t % 2 ^ 128 }

theorem sub_mul_low (x q s : Int) (m : Int) :
    ((x % m) - (q * (s % m)) % m) % m = (x - q * s) % m := by
  have h1 : x % m ≡ x [ZMOD m] := Int.mod_modEq x m
  have h2 : s % m ≡ s [ZMOD m] := Int.mod_modEq s m
  have h3 : q * (s % m) % m ≡ q * s [ZMOD m] := (Int.mod_modEq _ m).trans (h2.mul_left q)
  exact h1.sub h3

theorem egcdLoop_int256 : ∀ (fuel : Nat) (st : EGcd), 0 ≤ st.oldR → st.oldR < 2 ^ 128 → 0 ≤ st.r → st.r < 2 ^ 128 →
    egcdLoop .int256 fuel st.low = (egcdLoopZ fuel st).map EGcd.low := by
  intro fuel
  induction fuel with
  | zero =>
    intro st _ _ _ _
    unfold egcdLoop egcdLoopZ
    have : st.low.r = st.r := rfl
    rw [this]
    split <;> rfl
  | succ f ih =>
    intro st h1 h2 h3 h4
    unfold egcdLoop egcdLoopZ
    have hr' : st.low.r = st.r := rfl
    rw [hr']
    split
    · rfl
    · rename_i hr
      have hrp : 0 < st.r := by omega
      have q0 : 0 ≤ Int.tdiv st.oldR st.r := Int.tdiv_nonneg h1 h3
      have m0 : 0 ≤ Int.tmod st.oldR st.r := Int.tmod_nonneg _ h1
      have m1 : Int.tmod st.oldR st.r < st.r := Int.tmod_lt_of_pos _ hrp
      have hd := Int.tdiv_mul_add_tmod st.oldR st.r
      have k1 : Int.tdiv st.oldR st.r ≤ Int.tdiv st.oldR st.r * st.r := by nlinarith
      have k2 : 0 ≤ Int.tdiv st.oldR st.r * st.r := mul_nonneg q0 h3
      have ho : st.low.oldR = st.oldR := rfl
      have e1 : Int.tdiv st.oldR st.r % 2 ^ 128 = Int.tdiv st.oldR st.r := Int.emod_eq_of_lt q0 (by omega)
      have e2 : Int.tdiv st.oldR st.r * st.r % 2 ^ 128 = Int.tdiv st.oldR st.r * st.r := Int.emod_eq_of_lt k2 (by omega)
      have e3 : (st.oldR - Int.tdiv st.oldR st.r * st.r) % 2 ^ 128 = st.oldR - Int.tdiv st.oldR st.r * st.r :=
        Int.emod_eq_of_lt (by omega) (by omega)
      simp only [SInt.subMul, SInt.norm, ok_bind, ho, e1, e2, e3, EGcd.low, sub_mul_low]
      exact ih { oldR := st.r, r := st.oldR - Int.tdiv st.oldR st.r * st.r
                 oldS := st.s, s := st.oldS - Int.tdiv st.oldR st.r * st.s
                 oldT := st.t, t := st.oldT - Int.tdiv st.oldR st.r * st.t } h3 h4 (by simp only; omega) (by simp only; omega)

theorem extended_gcd_int256 {a c : Int} (ha : 0 ≤ a) (ha' : a < 2 ^ 128) (hc : 0 ≤ c) (hc' : c < 2 ^ 128) :
    extended_gcd .int256 a c = (extended_gcdZ a c).map EGcd.low :=
  egcdLoop_int256 _ { oldR := a, r := c, oldS := 1, s := 0, oldT := 0, t := 1 } ha ha' hc hc'

/-! ## `chinese_remainder` -/

theorem crtProd_eq {S : SInt} {B : Int} (hS : S.Holds B) : ∀ (l : List (Nat × Nat)) (acc : Nat), (∀ an ∈ l, 0 < an.2) →
    ((acc * (l.map (fun an => an.2)).prod : Nat) : Int) ≤ B →
    crtProd S l acc = .ok ((acc * (l.map (fun an => an.2)).prod : Nat) : Int) := by
  intro l
  induction l with
  | nil => intro acc _ _; simp [crtProd]
  | cons hd tl ih =>
    intro acc hp hB
    obtain ⟨a, n⟩ := hd
    have e : acc * (((a, n) :: tl).map (fun an => an.2)).prod = (acc * n) * (tl.map (fun an => an.2)).prod := by
      simp only [List.map_cons, List.prod_cons]; ring
    rw [e] at hB ⊢
    have hpt : 0 < (tl.map (fun an => an.2)).prod := by
      apply List.prod_pos
      intro x hx
      obtain ⟨y, hy, rfl⟩ := List.mem_map.1 hx
      exact hp y (by simp [hy])
    have hle : ((acc * n : Nat) : Int) ≤ B := by
      refine le_trans ?_ hB
      exact_mod_cast Nat.le_mul_of_pos_right _ hpt
    unfold crtProd
    have hn : S.norm ((acc : Int) * ((a, n) : Nat × Nat).2) = .ok ((acc * n : Nat) : Int) := by
      have := hS ((acc * n : Nat) : Int) (by rw [abs_of_nonneg (Int.natCast_nonneg _)]; exact hle)
      rw [← this]; push_cast; rfl
    simp only at hn
    simp only [hn, ok_bind]
    exact ih (acc * n) (fun an h => hp an (by simp [h])) hB

theorem crtTerm_eq {S : SInt} {B : Int} (hS : S.Holds B) {P n : Nat} (hn : 0 < n) (hd : n ∣ P) (hP : 0 < P)
    (hco : Nat.Coprime (P / n) n) (hB : (P : Int) ≤ B) :
    ∃ N M : Int, crtTerm S P n = .ok (N, M) ∧ crtTermZ P n = .ok (N, M) ∧ 2 * |N * M| ≤ P := by
  have hdiv : Int.tdiv (P : Int) (n : Int) = ((P / n : Nat) : Int) := by
    rw [Int.tdiv_eq_ediv_of_nonneg (by omega)]; exact_mod_cast rfl
  have hNle : ((P / n : Nat) : Int) ≤ B := le_trans (by exact_mod_cast Nat.div_le_self _ _) hB
  have hnle : (n : Int) ≤ B := le_trans (by exact_mod_cast Nat.le_of_dvd hP hd) hB
  have haN : |((P / n : Nat) : Int)| ≤ B := by rw [abs_of_nonneg (Int.natCast_nonneg _)]; exact hNle
  have han : |(n : Int)| ≤ B := by rw [abs_of_nonneg (Int.natCast_nonneg _)]; exact hnle
  obtain ⟨st, e, hb, hg⟩ := extended_gcdZ_nonneg (a := ((P / n : Nat) : Int)) (c := (n : Int))
    (Int.natCast_nonneg _) (Int.natCast_nonneg _)
  have h1 : st.oldR = 1 := by
    rw [hg, Int.gcd_natCast_natCast]; exact_mod_cast hco
  have hh := extended_gcdZ_half (by omega) e
  rw [h1, abs_one, mul_one, abs_of_nonneg (Int.natCast_nonneg n)] at hh
  refine ⟨((P / n : Nat) : Int), st.oldS, ?_, ?_, ?_⟩
  · unfold crtTerm
    rw [if_neg (by omega), hdiv, hS _ haN]
    simp only [ok_bind]
    rw [extended_gcd_eq hS haN han, e]; rfl
  · unfold crtTermZ
    rw [if_neg (by omega), hdiv]
    simp only [e]; rfl
  · rw [abs_mul, abs_of_nonneg (Int.natCast_nonneg _)]
    have h2 := mul_le_mul_of_nonneg_left hh (Int.natCast_nonneg (P / n))
    have h3 : ((P / n : Nat) : Int) * n = P := by exact_mod_cast Nat.div_mul_cancel hd
    linarith [mul_left_comm ((P / n : Nat) : Int) 2 |st.oldS|]

theorem crtSum_eq {S : SInt} {B : Int} (hS : S.Holds B) {P : Nat} (hP : 0 < P) (hB : (P : Int) ≤ B) :
    ∀ (l : List (Nat × Nat)) (x : Int) (A : Nat),
    (∀ an ∈ l, 0 < an.2 ∧ an.2 ∣ P ∧ Nat.Coprime (P / an.2) an.2) →
    2 * |x| ≤ P * A → ((P * (A + (l.map (fun an => an.1)).sum) : Nat) : Int) ≤ 2 * B + 1 →
    crtSum S P l x = crtSumZ P l x := by
  intro l
  induction l with
  | nil => intros; rfl
  | cons hd tl ih =>
    intro x A h hx hA
    obtain ⟨a, n⟩ := hd
    obtain ⟨h1, h2, h3⟩ := h (a, n) (by simp)
    simp only at h1 h2 h3
    obtain ⟨N, M, e1, e2, hNM⟩ := crtTerm_eq hS h1 h2 hP h3 hB
    have hsum : (((a, n) :: tl).map (fun an => an.1)).sum = a + (tl.map (fun an => an.1)).sum := by simp
    rw [hsum, ← Nat.add_assoc] at hA
    have hA' : (P : Int) * (A + a) ≤ 2 * B + 1 := by
      refine le_trans ?_ hA
      have : P * (A + a) ≤ P * (A + a + (tl.map (fun an => an.1)).sum) := Nat.mul_le_mul_left _ (by omega)
      exact_mod_cast this
    have ha0 : (0 : Int) ≤ a := Int.natCast_nonneg a
    have hA0 : (0 : Int) ≤ A := Int.natCast_nonneg A
    have hP0 : (0 : Int) ≤ P := Int.natCast_nonneg P
    have hPA := mul_nonneg hP0 hA0
    have hPa := mul_nonneg hP0 ha0
    have b1 : |N * M| ≤ B := by have := abs_nonneg (N * M); linarith
    have b2' : 2 * |N * M * a| ≤ P * a := by
      rw [abs_mul, abs_of_nonneg ha0]
      have := mul_le_mul_of_nonneg_right hNM ha0
      linarith
    have b3' : 2 * |x + N * M * a| ≤ P * (A + a) := by
      have := abs_add_le x (N * M * a)
      linarith
    have b2 : |N * M * a| ≤ B := by
      have : 2 * |N * M * a| ≤ 2 * B + 1 := by linarith
      omega
    have b3 : |x + N * M * a| ≤ B := by
      have : 2 * |x + N * M * a| ≤ 2 * B + 1 := by linarith
      omega
    unfold crtSum crtSumZ
    simp only [e1, e2, ok_bind, hS _ b1, hS _ b2, hS _ b3]
    exact ih _ (A + a) (fun an hn => h an (by simp [hn])) (by push_cast; exact b3') (by exact hA)

theorem chinese_remainder_spec {b : Nat} (l : List (Nat × Nat)) (hpos : ∀ an ∈ l, 0 < an.2)
    (hco : l.Pairwise (fun x y => Nat.Coprime x.2 y.2))
    (hP : (l.map (fun an => an.2)).prod < 2 ^ (2 * b - 1))
    (hA : (l.map (fun an => an.2)).prod * (l.map (fun an => an.1)).sum < 2 ^ (2 * b)) :
    ∃ x : Nat, chinese_remainder b l = .ok (x % 2 ^ b) ∧ x < (l.map (fun an => an.2)).prod ∧
      ∀ an ∈ l, x ≡ an.1 [MOD an.2] := by
  obtain ⟨x, e, h0, h1, h2⟩ := chinese_remainderZ_spec l hpos hco
  have hP0 : 0 < (l.map (fun an => an.2)).prod := by
    apply List.prod_pos
    intro a ha
    obtain ⟨y, hy, rfl⟩ := List.mem_map.1 ha
    exact hpos y hy
  have hall : ∀ an ∈ l, 0 < an.2 ∧ an.2 ∣ (l.map (fun an => an.2)).prod ∧
      Nat.Coprime ((l.map (fun an => an.2)).prod / an.2) an.2 := fun an han =>
    ⟨hpos an han, prod_div_of_mem hpos hco an han⟩
  have hfold : l.foldl (fun acc an => acc * (an.2 : Int)) 1 = (((l.map (fun an => an.2)).prod : Nat) : Int) := by
    rw [foldl_mul_prod, one_mul]
  have hprod : ∀ B : Int, (SInt.signed (2 * b)).Holds B → (((l.map (fun an => an.2)).prod : Nat) : Int) ≤ B →
      crtProd (.signed (2 * b)) l 1 = .ok (((l.map (fun an => an.2)).prod : Nat) : Int) := by
    intro B hS hB
    have := crtProd_eq hS l 1 hpos (by rw [Nat.one_mul]; exact hB)
    rw [Nat.one_mul] at this
    exact this
  generalize (l.map (fun an => an.2)).prod = P at *
  have hb : 1 ≤ b := by
    by_contra hb
    have : b = 0 := by omega
    subst this
    simp at hP; omega
  have hpow : (2 : Int) ^ (2 * b) = 2 * 2 ^ (2 * b - 1) := by
    rw [← pow_succ']; congr 1; omega
  obtain ⟨B, hBlt, hPB, hAB⟩ : ∃ B : Int, B < 2 ^ (2 * b - 1) ∧ (P : Int) ≤ B ∧
      ((P * (0 + (l.map (fun an => an.1)).sum) : Nat) : Int) ≤ 2 * B + 1 := by
    refine ⟨2 ^ (2 * b - 1) - 1, by omega, ?_, ?_⟩
    · have : (P : Int) < 2 ^ (2 * b - 1) := by exact_mod_cast hP
      omega
    · rw [Nat.zero_add]
      have : ((P * (l.map (fun an => an.1)).sum : Nat) : Int) < 2 ^ (2 * b) := by exact_mod_cast hA
      omega
  have hS := SInt.holds_signed hBlt
  have hp := hprod B hS hPB
  have hs := crtSum_eq hS hP0 hPB l 0 0 hall (by simp) hAB
  unfold chinese_remainderZ at e
  rw [hfold] at e
  obtain ⟨y, ey, e'⟩ := res_bind_ok e
  have hx : (if Int.tmod y P < 0 then (P : Int) + Int.tmod y P else Int.tmod y P) = x := by
    cases e'; rfl
  have hxn : (x.toNat : Int) = x := Int.toNat_of_nonneg h0
  refine ⟨x.toNat, ?_, by omega, ?_⟩
  · unfold chinese_remainder
    simp only [hp, ok_bind, hs, ey]
    have hz : (if Int.tmod y P < 0 then (SInt.signed (2 * b)).norm ((P : Int) + Int.tmod y P) else pure (Int.tmod y P)) =
        (.ok x : Res Int) := by
      split
      · rename_i hneg
        rw [if_pos hneg] at hx
        rw [hx]
        exact hS x (by rw [abs_of_nonneg h0]; omega)
      · rename_i hneg
        rw [if_neg hneg] at hx
        rw [hx]; rfl
    simp only [hz, ok_bind]
    have : (x % 2 ^ b).toNat = x.toNat % 2 ^ b := by
      have h3 : x % 2 ^ b = ((x.toNat % 2 ^ b : Nat) : Int) := by rw [Int.natCast_mod, hxn]; push_cast; rfl
      rw [h3, Int.toNat_natCast]
    rw [this]; rfl
  · intro an han
    have := h2 an han
    rw [← hxn] at this
    exact (Int.natCast_modEq_iff).1 this

/-- reduced residues sum to less than the product of the moduli -/
theorem sum_lt_prod : ∀ (l : List (Nat × Nat)), (∀ an ∈ l, an.1 < an.2) →
    (l.map (fun an => an.1)).sum < (l.map (fun an => an.2)).prod := by
  intro l
  induction l with
  | nil => intro _; simp
  | cons hd tl ih =>
    intro h
    have h1 := h hd (by simp)
    have h2 := ih (fun an hn => h an (by simp [hn]))
    simp only [List.map_cons, List.sum_cons, List.prod_cons]
    have h3 : (hd.1 + 1) * ((tl.map (fun an => an.1)).sum + 1) ≤ hd.2 * (tl.map (fun an => an.2)).prod :=
      Nat.mul_le_mul h1 h2
    have : (hd.1 + 1) * ((tl.map (fun an => an.1)).sum + 1) =
        hd.1 * (tl.map (fun an => an.1)).sum + hd.1 + (tl.map (fun an => an.1)).sum + 1 := by ring
    omega

end Quad.Arith
