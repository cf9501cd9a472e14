import Verif.Model.Field
import Verif.Lemmas.ArithMach
import Verif.Lemmas.ArithFactor
import Mathlib.Data.ZMod.Basic
import Mathlib.FieldTheory.Finite.Basic
import Mathlib.RingTheory.RootsOfUnity.PrimitiveRoots
import Mathlib.RingTheory.IntegralDomain
import Mathlib.GroupTheory.OrderOfElement

namespace Quad

/-! ## Simulation of a field object -/

/-- `F` computes in the field `K`: on valid words `V` the operations are those
of `K` through `φ`. -/
structure GF.Sim (F : GF) (K : Type) [Field K] where
  V : Nat → Prop
  φ : Nat → K
  /-- the values `inv` and `div` accept -/
  U : Nat → Prop
  zero : V 0 ∧ φ 0 = 0
  one : V F.unit ∧ φ F.unit = 1
  add : ∀ {a c}, V a → V c → V (F.add a c) ∧ φ (F.add a c) = φ a + φ c
  sub : ∀ {a c}, V a → V c → V (F.sub a c) ∧ φ (F.sub a c) = φ a - φ c
  mul : ∀ {a c}, V a → V c → V (F.mul a c) ∧ φ (F.mul a c) = φ a * φ c
  neg : ∀ {a}, V a → V (F.neg a) ∧ φ (F.neg a) = - φ a
  inv : ∀ {a}, V a → U a → ∃ r, F.inv a = .ok r ∧ V r ∧ φ r = (φ a)⁻¹
  div : ∀ {a c}, V a → V c → U c → ∃ r, F.div a c = .ok r ∧ V r ∧ φ r = φ a / φ c
  exp' : F.isNF4 = false → ∀ {a e}, V a → V (F.exp a e) ∧ φ (F.exp a e) = φ a ^ e
  omega : ∀ {a e}, V a → (F.isNF4 = true → e < 2 ^ 32) → V (F.omega a e) ∧ φ (F.omega a e) = φ a ^ e

/-- a field object with one element per word -/
class GF.Plain (F : GF) : Prop where
  plain : F.isNF4 = false

theorem GF.Sim.exp {F : GF} [h : F.Plain] {K : Type} [Field K] (S : F.Sim K) {a e : Nat} (ha : S.V a) :
    S.V (F.exp a e) ∧ S.φ (F.exp a e) = S.φ a ^ e := S.exp' h.plain ha

instance RingModN.Obj.plain (O : RingModN.Obj) : O.gf.Plain := ⟨rfl⟩

/-- the simulation is faithful -/
def GF.Sim.Inj {F : GF} {K : Type} [Field K] (S : F.Sim K) : Prop :=
  ∀ {a c}, S.V a → S.V c → S.φ a = S.φ c → a = c

/-! ## exponentiation over a virtual `mul` -/

theorem expQuickF_sim {M : Type*} [Monoid M] {mul : Nat → Nat → Nat} {V : Nat → Prop} {φ : Nat → M}
    (hone : V 1 ∧ φ 1 = 1) (hmul : ∀ {a c}, V a → V c → V (mul a c) ∧ φ (mul a c) = φ a * φ c)
    {base : Nat} (hb : V base) : ∀ (fuel e : Nat), e < fuel →
      V (expQuickF mul base fuel e) ∧ φ (expQuickF mul base fuel e) = φ base ^ e := by
  intro fuel
  induction fuel with
  | zero => intro e h; omega
  | succ f ih =>
    intro e he
    unfold expQuickF
    split
    · rename_i h; subst h; simpa using hone
    · split
      · rename_i h; subst h; simpa using hb
      · obtain ⟨h1, h2⟩ := ih (e / 2) (by omega)
        obtain ⟨h3, h4⟩ := hmul h1 h1
        simp only
        split
        · rename_i hodd
          obtain ⟨h5, h6⟩ := hmul h3 hb
          refine ⟨h5, ?_⟩
          rw [h6, h4, h2, ← pow_add, ← pow_succ]
          congr 1; omega
        · refine ⟨h3, ?_⟩
          rw [h4, h2, ← pow_add]
          congr 1; omega

theorem expQuick_sim {M : Type*} [Monoid M] {mul : Nat → Nat → Nat} {V : Nat → Prop} {φ : Nat → M}
    (hone : V 1 ∧ φ 1 = 1) (hmul : ∀ {a c}, V a → V c → V (mul a c) ∧ φ (mul a c) = φ a * φ c)
    {base : Nat} (hb : V base) (e : Nat) :
      V (expQuick mul base e) ∧ φ (expQuick mul base e) = φ base ^ e :=
  expQuickF_sim hone hmul hb (e + 1) e (by omega)

theorem expQuickCF_eq {mulC : Nat → Nat → Res Nat} {mul : Nat → Nat → Nat} {V : Nat → Prop} (hone : V 1)
    (hmul : ∀ {a c}, V a → V c → mulC a c = .ok (mul a c) ∧ V (mul a c)) {base : Nat} (hb : V base) : ∀ (fuel e : Nat), e < fuel →
      expQuickCF mulC base fuel e = .ok (expQuickF mul base fuel e) ∧ V (expQuickF mul base fuel e) := by
  intro fuel
  induction fuel with
  | zero => intro e h; omega
  | succ f ih =>
    intro e he
    unfold expQuickF expQuickCF
    by_cases h0 : e = 0
    · rw [if_pos h0, if_pos h0]; exact ⟨rfl, hone⟩
    · rw [if_neg h0, if_neg h0]
      by_cases h1 : e = 1
      · rw [if_pos h1, if_pos h1]; exact ⟨rfl, hb⟩
      · rw [if_neg h1, if_neg h1]
        obtain ⟨e1, v1⟩ := ih (e / 2) (by omega)
        obtain ⟨e2, v2⟩ := hmul v1 v1
        rw [e1, ok_bind, e2, ok_bind]
        simp only
        by_cases h2 : e % 2 = 1
        · rw [if_pos h2, if_pos h2]; exact hmul v2 hb
        · rw [if_neg h2, if_neg h2]; exact ⟨rfl, v2⟩

/-- on elements no table is left -/
theorem expQuickC_eq {mulC : Nat → Nat → Res Nat} {mul : Nat → Nat → Nat} {V : Nat → Prop} (hone : V 1)
    (hmul : ∀ {a c}, V a → V c → mulC a c = .ok (mul a c) ∧ V (mul a c)) {base : Nat} (hb : V base) (e : Nat) :
    expQuickC mulC base e = .ok (expQuick mul base e) :=
  (expQuickCF_eq hone hmul hb (e + 1) e (by omega)).1

theorem expNaive_sim {M : Type*} [Monoid M] {mul : Nat → Nat → Nat} {V : Nat → Prop} {φ : Nat → M}
    (hone : V 1 ∧ φ 1 = 1) (hmul : ∀ {a c}, V a → V c → V (mul a c) ∧ φ (mul a c) = φ a * φ c)
    {base : Nat} (hb : V base) (e : Nat) :
      V (expNaive mul base e) ∧ φ (expNaive mul base e) = φ base ^ e := by
  have loop : ∀ k r j, V r → φ r = φ base ^ j →
      V (expNaiveLoop mul base k r) ∧ φ (expNaiveLoop mul base k r) = φ base ^ (j + k) := by
    intro k
    induction k with
    | zero => intro r j h1 h2; exact ⟨h1, h2⟩
    | succ k ih =>
      intro r j h1 h2
      obtain ⟨h3, h4⟩ := hmul h1 hb
      have := ih (mul r base) (j + 1) h3 (by rw [h4, h2, pow_succ])
      rw [show j + 1 + k = j + (k + 1) by omega] at this
      exact this
  unfold expNaive
  split
  · rename_i h; subst h; simpa using hone
  · split
    · rename_i h; subst h; simpa using hb
    · have := loop (e - 1) base 1 hb (by simp)
      rwa [show 1 + (e - 1) = e by omega] at this

theorem logLoop_spec (exp : Nat → Nat → Nat) (base x : Nat) : ∀ k r,
    (∃ e, logLoop exp base x k r = .ok e ∧ exp base e = x ∧ r ≤ e ∧ e < r + k ∧
      ∀ j, r ≤ j → j < e → exp base j ≠ x) ∨
    (logLoop exp base x k r = .error (.throws .noSolution) ∧ ∀ j, r ≤ j → j < r + k → exp base j ≠ x) := by
  intro k
  induction k with
  | zero => intro r; right; exact ⟨rfl, by intros; omega⟩
  | succ k ih =>
    intro r
    unfold logLoop
    split
    · rename_i h; left; exact ⟨r, rfl, h, le_refl _, by omega, by intros; omega⟩
    · rename_i h
      rcases ih (r + 1) with ⟨e, e1, e2, e3, e4, e5⟩ | ⟨e1, e2⟩
      · left
        refine ⟨e, e1, e2, by omega, by omega, ?_⟩
        intro j h1 h2
        rcases Nat.eq_or_lt_of_le h1 with rfl | hlt
        · exact h
        · exact e5 j hlt h2
      · right
        refine ⟨e1, ?_⟩
        intro j h1 h2
        rcases Nat.eq_or_lt_of_le h1 with rfl | hlt
        · exact h
        · exact e2 j hlt (by omega)

/-! ## RingModN -/

namespace RingModN

/-- the modulus leaves a spare bit in `T`, its square fits the double-size type -/
structure Fits (R : RingModN) : Prop where
  pos : 1 < R.card
  spare : 2 * R.card ≤ 2 ^ R.b
  dbl : R.card * R.card ≤ 2 ^ R.db

variable {R : RingModN}

theorem add_eq (h : R.Fits) {x y : Nat} (hx : x < R.card) (hy : y < R.card) :
    R.add x y = (x + y) % R.card := by
  have := h.spare
  unfold add
  rw [Arith.wrap_of_lt (by omega)]
  simp only
  split
  · rw [Nat.mod_eq_sub_mod (by omega), Nat.mod_eq_of_lt (by omega)]
  · rw [Nat.mod_eq_of_lt (by omega)]

theorem sub_eq (h : R.Fits) {x y : Nat} (hx : x < R.card) (hy : y < R.card) :
    R.sub x y = (x + R.card - y) % R.card := by
  have := h.spare
  unfold sub
  split
  · rw [show x + R.card - y = (x - y) + R.card by omega, Nat.add_mod_right, Nat.mod_eq_of_lt (by omega)]
  · rw [show R.card + 2 ^ R.b - (y - x) = (R.card - (y - x)) + 2 ^ R.b by omega]
    unfold wrap
    rw [Nat.add_mod_right, Nat.mod_eq_of_lt (by omega), Nat.mod_eq_of_lt (by omega)]
    omega

theorem mul_eq (h : R.Fits) {x y : Nat} (hx : x < R.card) (hy : y < R.card) :
    R.mul x y = x * y % R.card := by
  unfold mul
  rw [Arith.wrap_of_lt (lt_of_lt_of_le (Nat.mul_lt_mul'' hx hy) h.dbl)]

theorem neg_eq (h : R.Fits) {x : Nat} (hx : x < R.card) : R.neg x = (R.card - x) % R.card := by
  have := h.pos
  unfold neg
  rw [sub_eq h (by omega) hx, Nat.zero_add]

theorem exp_eq (h : R.Fits) {x : Nat} (hx : x < R.card) (e : Nat) : R.exp x e = x ^ e % R.card := by
  have h1 := h.pos
  have := expQuick_sim (M := ZMod R.card) (mul := R.mul) (V := fun a => a < R.card)
    (φ := fun a => (a : ZMod R.card)) ⟨h.pos, by simp⟩
    (by
      intro a c ha hc
      refine ⟨by rw [mul_eq h ha hc]; exact Nat.mod_lt _ (by omega), ?_⟩
      rw [mul_eq h ha hc]; simp) hx e
  obtain ⟨h2, h3⟩ := this
  have h4 : ((R.exp x e : Nat) : ZMod R.card) = ((x ^ e : Nat) : ZMod R.card) := by
    rw [Nat.cast_pow]; exact h3
  rw [ZMod.natCast_eq_natCast_iff] at h4
  have h5 : R.exp x e % R.card = x ^ e % R.card := h4
  rwa [Nat.mod_eq_of_lt (show R.exp x e < R.card from h2)] at h5

end RingModN

/-! ## Bezout bounds -/

namespace Arith

/-- coefficients of the loop stay bounded: `|oldS| * r + |s| * oldR = c` -/
structure EB (c : Int) (st : EGcd) : Prop where
  r1 : 0 ≤ st.r
  lt : st.r < st.oldR
  le : |st.oldS| ≤ |st.s|
  sgn : (0 ≤ st.oldS ∧ st.s ≤ 0) ∨ (st.oldS ≤ 0 ∧ 0 ≤ st.s)
  cons : |st.oldS| * st.r + |st.s| * st.oldR = c

theorem egcdLoopZ_bound (c : Int) : ∀ (fuel : Nat) (st st' : EGcd), EB c st →
    egcdLoopZ fuel st = .ok st' → EB c st' ∧ st'.r = 0 := by
  intro fuel
  induction fuel with
  | zero =>
    intro st st' h e
    unfold egcdLoopZ at e
    split at e
    · rename_i h0; cases e; exact ⟨h, h0⟩
    · cases e
  | succ f ih =>
    intro st st' h e
    unfold egcdLoopZ at e
    split at e
    · rename_i h0; cases e; exact ⟨h, h0⟩
    · rename_i hr
      refine ih _ st' ?_ e
      have hrpos : 0 < st.r := lt_of_le_of_ne h.r1 (Ne.symm hr)
      have hq : Int.tdiv st.oldR st.r = st.oldR / st.r :=
        Int.tdiv_eq_ediv_of_nonneg (le_of_lt (lt_of_le_of_lt h.r1 h.lt))
      have hq1 : 1 ≤ st.oldR / st.r := Int.le_ediv_of_mul_le hrpos (by have := h.lt; omega)
      have hmod : st.oldR - st.oldR / st.r * st.r = st.oldR % st.r := by
        have := Int.emod_add_mul_ediv st.oldR st.r; linarith [mul_comm (st.oldR / st.r) st.r]
      have hnew : |st.oldS - st.oldR / st.r * st.s| = |st.oldS| + st.oldR / st.r * |st.s| := by
        rcases h.sgn with ⟨a, b⟩ | ⟨a, b⟩
        · rw [abs_of_nonneg a, abs_of_nonpos b,
            abs_of_nonneg (by nlinarith : (0:Int) ≤ st.oldS - st.oldR / st.r * st.s)]; ring
        · rw [abs_of_nonpos a, abs_of_nonneg b,
            abs_of_nonpos (by nlinarith : st.oldS - st.oldR / st.r * st.s ≤ (0:Int))]; ring
      refine ⟨?_, ?_, ?_, ?_, ?_⟩
      · simp only [hq]; rw [hmod]; exact Int.emod_nonneg _ hr
      · simp only [hq]; rw [hmod]; exact Int.emod_lt_of_pos _ hrpos
      · simp only [hq]; rw [hnew]
        have := abs_nonneg st.oldS
        have := abs_nonneg st.s
        nlinarith
      · simp only [hq]
        rcases h.sgn with ⟨a, c⟩ | ⟨a, c⟩
        · right; exact ⟨c, by nlinarith⟩
        · left; exact ⟨c, by nlinarith⟩
      · simp only [hq]; rw [hnew]
        linear_combination h.cons

/-- the first Bezout coefficient for a unit modulo `c` -/
theorem extended_gcdZ_inv {x c : Nat} (hc : 1 < c) (hx : x < c) (hco : Nat.Coprime x c) :
    ∃ st, extended_gcdZ x c = .ok st ∧ (x : Int) * st.oldS ≡ 1 [ZMOD c] ∧ |st.oldS| < c := by
  obtain ⟨st, e, h1, h2⟩ := extended_gcdZ_nonneg (a := (x : Int)) (c := (c : Int)) (by omega) (by omega)
  have hg : st.oldR = 1 := by
    rw [h2]
    have : Int.gcd (x : Int) (c : Int) = Nat.gcd x c := Int.gcd_natCast_natCast x c
    rw [this, hco]; rfl
  have hmod : (x : Int) * st.oldS ≡ 1 [ZMOD c] := by
    rw [hg] at h1
    rw [Int.modEq_iff_dvd]
    exact ⟨st.oldT, by linarith⟩
  refine ⟨st, e, hmod, ?_⟩
  unfold extended_gcdZ egcdLoopZ at e
  rw [if_neg (by simp; omega)] at e
  have hq : Int.tdiv (x : Int) (c : Int) = 0 := by
    rw [Int.tdiv_eq_ediv_of_nonneg (by omega)]; exact Int.ediv_eq_zero_of_lt (by omega) (by omega)
  simp only [hq] at e
  obtain ⟨hb, hr⟩ := egcdLoopZ_bound (c : Int) _ _ st (by
    refine ⟨?_, ?_, ?_, ?_, ?_⟩ <;> (simp; try omega)) e
  have hcons := hb.cons
  rw [hr, hg] at hcons
  have hle := hb.le
  have hle' : |st.oldS| ≤ c := by linarith
  rcases lt_or_eq_of_le hle' with h | h
  · exact h
  · exfalso
    have hd : (c : Int) ∣ st.oldS := by rw [← h]; exact abs_dvd_self _
    have h0 : (x : Int) * st.oldS ≡ 0 [ZMOD c] := Int.modEq_zero_iff_dvd.2 (Dvd.dvd.mul_left hd _)
    have h10 := (hmod.symm.trans h0)
    rw [Int.modEq_zero_iff_dvd] at h10
    have := Int.le_of_dvd (by norm_num) h10
    omega

end Arith

namespace RingModN

variable {R : RingModN}

theorem inv_bezout_spec (h : R.Fits) (hs : R.sgn = true) {x : Nat} (hx : x < R.card)
    (hco : Nat.Coprime x R.card) :
    ∃ r, R.inv_bezout x = .ok r ∧ r < R.card ∧ x * r % R.card = 1 := by
  have hpos := h.pos
  have hsp := h.spare
  obtain ⟨st, e, h1, h2⟩ := Arith.extended_gcdZ_inv h.pos hx hco
  rw [abs_lt] at h2
  have hb2 : 2 ≤ R.b := by
    by_contra hc
    have : 2 ^ R.b ≤ 2 ^ 1 := Nat.pow_le_pow_right (by norm_num) (by omega)
    omega
  have hlim : (R.card : Int) < 2 ^ (2 * R.b - 1) := by
    have h3 : 2 ^ R.b ≤ 2 ^ (2 * R.b - 1) := Nat.pow_le_pow_right (by norm_num) (by omega)
    have h4 : R.card < 2 ^ (2 * R.b - 1) := by omega
    exact_mod_cast h4
  have hS : R.sint.Holds R.card := by
    unfold sint; rw [if_pos hs]; exact Arith.SInt.holds_signed hlim
  unfold inv_bezout
  rw [Arith.extended_gcd_eq hS (by rw [abs_of_nonneg (Int.natCast_nonneg _)]; exact_mod_cast hx.le)
    (by rw [abs_of_nonneg (Int.natCast_nonneg _)]), e]
  simp only [ok_bind]
  have hne : st.oldS ≠ 0 := by
    intro h0
    rw [h0, mul_zero] at h1
    have := (Int.modEq_zero_iff_dvd.1 h1.symm)
    have := Int.le_of_dvd (by norm_num) this
    omega
  obtain ⟨z, hz, hz0, hzc, hzm⟩ : ∃ z : Int, (if st.oldS < 0 then (R.card : Int) + st.oldS else st.oldS) = z ∧
      0 ≤ z ∧ z < R.card ∧ (x : Int) * z ≡ 1 [ZMOD R.card] := by
    split
    · refine ⟨_, rfl, by omega, by omega, ?_⟩
      have : (x : Int) * ((R.card : Int) + st.oldS) = x * st.oldS + R.card * x := by ring
      rw [this]
      exact (Int.modEq_iff_dvd.2 ⟨-x, by ring⟩ : (x:Int) * st.oldS + R.card * x ≡ x * st.oldS [ZMOD R.card]).trans h1
    · exact ⟨_, rfl, by omega, by omega, h1⟩
  have hz' : (if st.oldS < 0 then R.sint.norm ((R.card : Int) + st.oldS) else pure st.oldS) = (.ok z : Res Int) := by
    split
    · rename_i hneg
      rw [if_pos hneg] at hz
      rw [hz]
      exact hS z (by rw [abs_of_nonneg hz0]; exact hzc.le)
    · rename_i hneg
      rw [if_neg hneg] at hz
      rw [hz]; rfl
  rw [hz']
  simp only [ok_bind]
  have h2b : (2:Int) ^ R.b = ((2 ^ R.b : Nat) : Int) := by push_cast; rfl
  have hzz : z % (2:Int) ^ R.b = z := by
    rw [h2b]; apply Int.emod_eq_of_lt hz0; omega
  rw [hzz]
  refine ⟨z.toNat, rfl, by omega, ?_⟩
  have : ((x * z.toNat : Nat) : Int) % (R.card : Int) = 1 := by
    rw [Nat.cast_mul, Int.toNat_of_nonneg hz0]
    have h3 : (x : Int) * z % R.card = 1 % R.card := hzm
    rw [h3]; exact Int.emod_eq_of_lt (by norm_num) (by omega)
  exact_mod_cast this

theorem inv_spec (h : R.Fits) (hs : R.sgn = true) (hp : R.card.Prime) {x : Nat} (h0 : x ≠ 0) (hx : x < R.card) :
    ∃ r, R.inv x = .ok r ∧ r < R.card ∧ x * r % R.card = 1 :=
  inv_bezout_spec h hs hx (Nat.Coprime.symm ((Nat.Prime.coprime_iff_not_dvd hp).2
    (fun hd => by have := Nat.le_of_dvd (by omega) hd; omega)))

theorem cast_ne_zero {p x : Nat} (h0 : x ≠ 0) (hx : x < p) : (x : ZMod p) ≠ 0 := by
  intro h
  rw [ZMod.natCast_eq_zero_iff] at h
  have := Nat.le_of_dvd (by omega) h
  omega

theorem cast_inj {p x y : Nat} (hx : x < p) (hy : y < p) (h : (x : ZMod p) = y) : x = y := by
  rw [ZMod.natCast_eq_natCast_iff] at h
  have h' : x % p = y % p := h
  rwa [Nat.mod_eq_of_lt hx, Nat.mod_eq_of_lt hy] at h'

/-- a prime field object computes in `ZMod p` -/
def sim (O : Obj) {p : Nat} [Fact p.Prime] (hc : O.ring.card = p) (h : O.ring.Fits) (hs : O.ring.sgn = true) :
    O.gf.Sim (ZMod p) where
  V := fun a => a < p
  φ := fun a => (a : ZMod p)
  U := fun a => (a : ZMod p) ≠ 0
  zero := ⟨(Fact.out : p.Prime).pos, by simp⟩
  one := ⟨by have := h.pos; simp [Obj.gf]; omega, by simp [Obj.gf]⟩
  add := by
    intro a c ha hcc
    simp only [Obj.gf]
    rw [add_eq h (by omega) (by omega), hc]
    exact ⟨Nat.mod_lt _ (by omega), by simp⟩
  sub := by
    intro a c ha hcc
    simp only [Obj.gf]
    rw [sub_eq h (by omega) (by omega), hc]
    refine ⟨Nat.mod_lt _ (by omega), ?_⟩
    rw [ZMod.natCast_mod, Nat.cast_sub (by omega)]; simp
  mul := by
    intro a c ha hcc
    simp only [Obj.gf]
    rw [mul_eq h (by omega) (by omega), hc]
    exact ⟨Nat.mod_lt _ (by omega), by simp⟩
  neg := by
    intro a ha
    simp only [Obj.gf]
    rw [neg_eq h (by omega), hc]
    refine ⟨Nat.mod_lt _ (by omega), ?_⟩
    rw [ZMod.natCast_mod, Nat.cast_sub (by omega)]; simp
  inv := by
    intro a ha h0
    have hne : a ≠ 0 := by rintro rfl; simp at h0
    obtain ⟨r, e, h1, h2⟩ := inv_spec h hs (by rw [hc]; exact Fact.out) hne (by omega)
    refine ⟨r, e, by omega, ?_⟩
    rw [hc] at h2
    have h3 : ((a * r : Nat) : ZMod p) = ((1 : Nat) : ZMod p) := by
      rw [ZMod.natCast_eq_natCast_iff]
      have := h.pos
      show a * r % p = 1 % p
      rw [h2, Nat.mod_eq_of_lt (by omega)]
    push_cast at h3
    exact eq_inv_of_mul_eq_one_right h3
  div := by
    intro a c ha hcc h0
    have hne : c ≠ 0 := by rintro rfl; simp at h0
    obtain ⟨r, e, h1, h2⟩ := inv_spec h hs (by rw [hc]; exact Fact.out) hne (by omega)
    refine ⟨O.ring.mul a r, by simp only [Obj.gf, div, e]; rfl, ?_⟩
    rw [mul_eq h (by omega) h1, hc]
    refine ⟨Nat.mod_lt _ (by omega), ?_⟩
    rw [hc] at h2
    have h3 : ((c * r : Nat) : ZMod p) = ((1 : Nat) : ZMod p) := by
      rw [ZMod.natCast_eq_natCast_iff]
      have := h.pos
      show c * r % p = 1 % p
      rw [h2, Nat.mod_eq_of_lt (by omega)]
    push_cast at h3
    rw [ZMod.natCast_mod, Nat.cast_mul, eq_inv_of_mul_eq_one_right h3, div_eq_mul_inv]
  exp' := by
    intro _ a e ha
    simp only [Obj.gf]
    rw [exp_eq h (by omega), hc]
    exact ⟨Nat.mod_lt _ (by omega), by simp⟩
  omega := by
    intro a e ha _
    simp only [Obj.gf]
    rw [exp_eq h (by omega), hc]
    exact ⟨Nat.mod_lt _ (by omega), by simp⟩

theorem sim_inj (O : Obj) {p : Nat} [Fact p.Prime] (hc : O.ring.card = p) (h : O.ring.Fits)
    (hs : O.ring.sgn = true) : (sim O hc h hs).Inj := by
  intro a c ha hcc he
  exact cast_inj ha hcc he

end RingModN
end Quad
