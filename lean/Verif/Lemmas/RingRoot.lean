import Verif.Lemmas.Ring
import Mathlib.NumberTheory.LegendreSymbol.Basic
import Mathlib.RingTheory.ZMod.UnitsCyclic

namespace Quad
namespace RingModN
open Arith RingModN.Obj

/-- an element word of the prime field, as a word test on `exp` -/
theorem exp_eq_one_iff {R : RingModN} (h : R.Fits) {x : Nat} (hx : x < R.card) (e : Nat) :
    R.exp x e = 1 ↔ (x : ZMod R.card) ^ e = 1 := by
  have h1 := h.pos
  rw [exp_eq h hx]
  constructor
  · intro he
    have : ((x ^ e % R.card : Nat) : ZMod R.card) = ((1 : Nat) : ZMod R.card) := by rw [he]
    simpa using this
  · intro he
    have : ((x ^ e % R.card : Nat) : ZMod R.card) = ((1 : Nat) : ZMod R.card) := by simpa using he
    exact cast_inj (Nat.mod_lt _ (by omega)) h1 this

theorem order_dvd {p : Nat} [Fact p.Prime] {x : ZMod p} (h0 : x ≠ 0) : x ^ (p - 1) = 1 :=
  ZMod.pow_card_sub_one_eq_one h0

/-- the test over the proper divisors decides "generator", unless `h` is itself prime -/
theorem noDivisor_iff {R : RingModN} (h : R.Fits) (hp : R.card.Prime) {fs : List (Nat × Nat)}
    (hf : IsFactorList fs (R.card - 1)) (h3 : R.card ≠ 3) {x : Nat} (hx : x < R.card) (h0 : x ≠ 0) :
    noDivisorGivesOne R.exp x (get_proper_divisors_from (R.card - 1) (fs.map Prod.fst)) = true ↔
      orderOf (x : ZMod R.card) = R.card - 1 := by
  have := Fact.mk hp
  have hpos := h.pos
  have hne : (x : ZMod R.card) ≠ 0 := cast_ne_zero h0 hx
  have hpow := order_dvd (p := R.card) hne
  unfold noDivisorGivesOne
  simp only [get_proper_divisors_from, List.all_eq_true, List.mem_map, List.mem_filter,
    decide_eq_true_eq, bne_iff_ne, ne_eq]
  constructor
  · intro hall
    refine orderOf_eq_of_pow_and_pow_div_prime (by omega) hpow ?_
    intro q hq hqd he
    have hqlt : q < R.card - 1 := by
      refine lt_of_le_of_ne (Nat.le_of_dvd (by omega) hqd) ?_
      intro heq
      have hq2 : q = 2 := by
        rcases hp.eq_two_or_odd with h | h
        · have := hq.two_le; omega
        · rcases hq.eq_two_or_odd with h' | h'
          · exact h'
          · omega
      omega
    obtain ⟨pe, hm, hpe⟩ := hf.mem hq hqd
    exact hall _ ⟨q, ⟨⟨pe, hm, hpe⟩, hqlt⟩, rfl⟩ ((exp_eq_one_iff h hx _).2 he)
  · rintro hord d ⟨q, ⟨⟨pe, hm, rfl⟩, hlt⟩, rfl⟩ he
    rw [exp_eq_one_iff h hx] at he
    have hq := (hf.1 pe hm).1
    have hd := orderOf_dvd_of_pow_eq_one he
    rw [hord] at hd
    have hpos' : 0 < (R.card - 1) / pe.1 := Nat.div_pos (by omega) hq.pos
    have := Nat.le_of_dvd hpos' hd
    have := Nat.div_lt_self (n := R.card - 1) (by omega) hq.one_lt
    omega

theorem rootLoop_spec (exp : Nat → Nat → Nat) (ds : List Nat) : ∀ k nb,
    (∃ m, nb ≤ m ∧ m < nb + k ∧ noDivisorGivesOne exp m ds = true) →
    nb ≤ rootLoop exp ds k nb ∧ rootLoop exp ds k nb < nb + k ∧
      noDivisorGivesOne exp (rootLoop exp ds k nb) ds = true := by
  intro k
  induction k with
  | zero => rintro nb ⟨m, h1, h2, _⟩; omega
  | succ k ih =>
    rintro nb ⟨m, h1, h2, h3⟩
    unfold rootLoop
    split
    · rename_i h; exact ⟨le_refl _, by omega, h⟩
    · rename_i h
      have hne : m ≠ nb := by rintro rfl; exact h h3
      obtain ⟨a, b, c⟩ := ih (nb + 1) ⟨m, by omega, by omega, h3⟩
      exact ⟨by omega, by omega, c⟩

theorem exists_primitive {p : Nat} [Fact p.Prime] :
    ∃ m : Nat, 0 < m ∧ m < p ∧ orderOf (m : ZMod p) = p - 1 := by
  obtain ⟨g, hg⟩ := IsCyclic.exists_generator (α := (ZMod p)ˣ)
  refine ⟨(g : ZMod p).val, ?_, ZMod.val_lt _, ?_⟩
  · rw [Nat.pos_iff_ne_zero]
    intro h
    rw [ZMod.val_eq_zero] at h
    exact g.ne_zero h
  · rw [ZMod.natCast_zmod_val, orderOf_units, orderOf_eq_card_of_forall_mem_zpowers hg,
      Nat.card_eq_fintype_card, ZMod.card_units]

theorem three_case : orderOf (2 : ZMod 3) = 2 := by
  refine orderOf_eq_prime (by decide) (by decide)

/-- `init` on a prime field succeeds and finds a generator -/
theorem init_spec {R : RingModN} (h : R.Fits) (hp : R.card.Prime) (hb : R.b % 2 = 0) (hb0 : 0 < R.b) :
    ∃ O, R.init 0 = .ok O ∧ O.ring = R ∧ IsFactorList O.factors (R.card - 1) ∧
      O.all_primes_factors = get_prime_factors_from O.factors ∧
      O.proper_divisors = get_proper_divisors_from (R.card - 1) (O.factors.map Prod.fst) ∧
      0 < O.root ∧ O.root < R.card ∧ orderOf (O.root : ZMod R.card) = R.card - 1 := by
  have := Fact.mk hp
  have hpos := h.pos
  have hsp := h.spare
  obtain ⟨fs, e, hf⟩ := factor_prime_spec (b := R.b) (nb := R.card - 1) hb hb0 (by omega) (by omega)
  have hroot : ∃ r, R.find_primitive_root 0 (get_proper_divisors_from (R.card - 1) (fs.map Prod.fst)) = .ok r ∧
      0 < r ∧ r < R.card ∧ orderOf (r : ZMod R.card) = R.card - 1 := by
    unfold find_primitive_root
    rw [if_neg (by simp)]
    simp only
    have hcm : R.cardM1 = R.card - 1 := rfl
    by_cases h1 : R.cardM1 = 1
    · rw [if_pos h1]
      exact ⟨1, rfl, by omega, by omega, by rw [Nat.cast_one, orderOf_one, ← hcm, h1]⟩
    · rw [if_neg h1, hcm]
      by_cases h3 : R.card = 3
      · obtain ⟨b, db, sgn, card⟩ := R
        simp only at h3
        subst h3
        have hds : get_proper_divisors_from (3 - 1) (fs.map Prod.fst) = [] := by
          unfold get_proper_divisors_from
          simp only [List.map_eq_nil_iff, List.filter_eq_nil_iff, List.mem_map, decide_eq_true_eq]
          rintro a ⟨pe, hm, rfl⟩
          have := (hf.1 pe hm).1.two_le
          omega
        simp only [hds]
        have hr : rootLoop (RingModN.exp ⟨b, db, sgn, 3⟩) [] (3 - 1 - 1) 2 = 2 := rfl
        rw [hr]
        exact ⟨2, rfl, by omega, by omega, by exact_mod_cast three_case⟩
      · obtain ⟨m, hm0, hmlt, hmord⟩ := exists_primitive (p := R.card)
        have hm1 : m ≠ 1 := by
          rintro rfl
          rw [Nat.cast_one, orderOf_one] at hmord
          omega
        obtain ⟨a1, a2, a3⟩ := rootLoop_spec R.exp (get_proper_divisors_from (R.card - 1) (fs.map Prod.fst))
          (R.card - 1 - 1) 2 ⟨m, by omega, by omega, (noDivisor_iff h hp hf h3 hmlt (by omega)).2 hmord⟩
        rw [if_neg (by omega)]
        exact ⟨_, rfl, by omega, by omega, (noDivisor_iff h hp hf h3 (by omega) (by omega)).1 a3⟩
  obtain ⟨r, er, r1, r2, r3⟩ := hroot
  refine ⟨_, by simp only [init, cardM1, e, ok_bind, er]; rfl, rfl, hf, rfl, rfl, r1, r2, r3⟩

/-- what the theorems about prime field objects assume: built by `init` on a
prime modulus with a spare bit, signed double-size type -/
structure IsPrimeField (O : Obj) (p : Nat) : Prop where
  prime : p.Prime
  card : O.ring.card = p
  fits : O.ring.Fits
  sgn : O.ring.sgn = true
  even : O.ring.b % 2 = 0
  built : O.ring.init 0 = .ok O

namespace IsPrimeField
variable {O : Obj} {p : Nat}

theorem spec (H : IsPrimeField O p) : IsFactorList O.factors (p - 1) ∧
      O.all_primes_factors = get_prime_factors_from O.factors ∧
      O.proper_divisors = get_proper_divisors_from (p - 1) (O.factors.map Prod.fst) ∧
      0 < O.root ∧ O.root < p ∧ orderOf (O.root : ZMod p) = p - 1 := by
  have hb0 : 0 < O.ring.b := by
    rcases Nat.eq_zero_or_pos O.ring.b with h | h
    · have h1 := H.fits.spare
      have h2 := H.fits.pos
      rw [h] at h1; omega
    · exact h
  obtain ⟨O', e, _, h2, h3, h4, h5, h6, h7⟩ := init_spec H.fits (by rw [H.card]; exact H.prime) H.even hb0
  rw [H.built] at e
  cases e
  rw [H.card] at h2 h4 h6 h7
  exact ⟨h2, h3, h4, h5, h6, h7⟩

theorem get_nth_root_spec (H : IsPrimeField O p) (n : Nat) :
    ∃ w, O.get_nth_root n = .ok w ∧ w < p ∧ IsPrimitiveRoot (w : ZMod p) (Nat.gcd n (p - 1)) := by
  have := Fact.mk H.prime
  obtain ⟨_, _, _, h5, h6, h7⟩ := H.spec
  have hp2 := H.prime.two_le
  have hd : Nat.gcd n (p - 1) ∣ p - 1 := Nat.gcd_dvd_right _ _
  have hg : 0 < Nat.gcd n (p - 1) := Nat.gcd_pos_of_pos_right _ (by omega)
  have hroot : O.root < O.ring.card := by rw [H.card]; exact h6
  refine ⟨O.ring.exp O.root ((p - 1) / Nat.gcd n (p - 1)), ?_, ?_, ?_⟩
  · unfold Obj.get_nth_root
    rw [gcd_eq]
    simp only [ok_bind, cardM1, H.card]
    rw [if_neg (by omega)]; rfl
  · rw [exp_eq H.fits hroot, H.card]; exact Nat.mod_lt _ (by omega)
  · rw [exp_eq H.fits hroot, H.card, ZMod.natCast_mod, Nat.cast_pow]
    have hprim : IsPrimitiveRoot (O.root : ZMod p) (p - 1) := by
      rw [← h7]; exact IsPrimitiveRoot.orderOf _
    exact IsPrimitiveRoot.pow (by omega) hprim (Nat.div_mul_cancel hd).symm

/-- invariant of the order computation -/
theorem do_step_spec {R : RingModN} (hF : R.Fits) (hp : R.card.Prime) {x : Nat} (hx : x < R.card)
    : ∀ (fuel h : Nat) (D : List (Nat × Nat)), orderFuel D ≤ fuel → 0 < h →
      (x : ZMod R.card) ^ h = 1 →
      (∀ pe ∈ D, pe.1.Prime ∧ 0 < pe.2 ∧ pe.1 ^ pe.2 ∣ h ∧ ¬ pe.1 ^ (pe.2 + 1) ∣ h) → D.Pairwise (fun a c => a.1 ≠ c.1) →
      (∀ q, q.Prime → q ∣ h → (∃ pe ∈ D, pe.1 = q) ∨ (x : ZMod R.card) ^ (h / q) ≠ 1) →
      Obj.do_step_get_order R.exp x fuel h D = .ok (orderOf (x : ZMod R.card)) := by
  have := Fact.mk hp
  intro fuel
  induction fuel with
  | zero => intro h D hf; unfold orderFuel at hf; omega
  | succ f ih =>
    intro h D hf hh hxh hD hpw hq
    cases D with
    | nil =>
      unfold Obj.do_step_get_order
      congr 1
      symm
      refine orderOf_eq_of_pow_and_pow_div_prime hh hxh ?_
      intro q hqp hqd
      rcases hq q hqp hqd with ⟨pe, hm, _⟩ | h'
      · simp at hm
      · exact h'
    | cons pr D =>
      obtain ⟨p, r⟩ := pr
      obtain ⟨hpp, hr, hpd, hpnd⟩ := hD (p, r) (by simp)
      simp only at hpp hr hpd hpnd
      have hpdh : p ∣ h := (dvd_pow_self p hr.ne').trans hpd
      rw [List.pairwise_cons] at hpw
      have hfuel : orderFuel D + (r + 1) ≤ f + 1 := by
        unfold orderFuel at hf ⊢
        simp only [List.map_cons, List.sum_cons] at hf
        omega
      unfold Obj.do_step_get_order
      simp only
      split
      · rename_i hne
        rw [Ne, exp_eq_one_iff hF hx] at hne
        refine ih h D (by omega) hh hxh (fun pe hm => hD pe (by simp [hm])) hpw.2 ?_
        intro q hqp hqd
        rcases hq q hqp hqd with ⟨pe, hm, hpe⟩ | h'
        · rcases List.mem_cons.1 hm with rfl | hm
          · right; simp only at hpe; rw [← hpe]; exact hne
          · left; exact ⟨pe, hm, hpe⟩
        · right; exact h'
      · rename_i heq
        rw [Ne, not_not, exp_eq_one_iff hF hx] at heq
        have hh' : 0 < h / p := Nat.div_pos (Nat.le_of_dvd hh hpdh) hpp.pos
        have hmulh : h = p * (h / p) := (Nat.mul_div_cancel' hpdh).symm
        -- the conditions on the remaining primes
        have hdvd' : h / p ∣ h := ⟨p, by rw [mul_comm]; exact hmulh⟩
        have hD' : ∀ pe ∈ D, pe.1.Prime ∧ 0 < pe.2 ∧ pe.1 ^ pe.2 ∣ h / p ∧ ¬ pe.1 ^ (pe.2 + 1) ∣ h / p := by
          intro pe hm
          obtain ⟨a1, a2, a3, a4⟩ := hD pe (by simp [hm])
          refine ⟨a1, a2, ?_, fun hc => a4 (hc.trans hdvd')⟩
          have hne : p ≠ pe.1 := hpw.1 pe hm
          have hco : Nat.Coprime (pe.1 ^ pe.2) p :=
            Nat.Coprime.pow_left _ ((Nat.coprime_primes a1 hpp).2 hne.symm)
          rw [hmulh] at a3
          exact hco.dvd_of_dvd_mul_left a3
        have hrest : ∀ q, q.Prime → q ∣ h / p → q ≠ p → (∃ pe ∈ D, pe.1 = q) ∨
            (x : ZMod R.card) ^ (h / p / q) ≠ 1 := by
          intro q hqp hqd hqne
          rcases hq q hqp (hqd.trans ⟨p, by rw [mul_comm]; exact hmulh⟩) with ⟨pe, hm, hpe⟩ | h'
          · rcases List.mem_cons.1 hm with rfl | hm
            · exact absurd hpe.symm hqne
            · left; exact ⟨pe, hm, hpe⟩
          · right
            intro hc
            apply h'
            have : h / q = (h / p / q) * p := by
              obtain ⟨c, hc'⟩ := hqd
              rw [hc', Nat.mul_div_cancel_left _ hqp.pos]
              rw [hmulh, hc', show p * (q * c) = q * (c * p) by ring, Nat.mul_div_cancel_left _ hqp.pos]
            rw [this, pow_mul, hc, one_pow]
        by_cases hr1 : r > 1
        · rw [if_pos hr1]
          refine ih (h / p) ((p, r - 1) :: D) ?_ hh' heq ?_ ?_ ?_
          · unfold orderFuel at hfuel ⊢
            simp only [List.map_cons, List.sum_cons]; omega
          · intro pe hm
            rcases List.mem_cons.1 hm with rfl | hm
            · refine ⟨hpp, by simp only; omega, ?_, ?_⟩
              swap
              · simp only
                intro hc
                apply hpnd
                rw [pow_succ', hmulh]
                rw [show r - 1 + 1 = r by omega] at hc
                exact Nat.mul_dvd_mul_left p hc
              simp only
              have : p ^ r = p * p ^ (r - 1) := by rw [← pow_succ']; congr 1; omega
              rw [this, hmulh] at hpd
              exact Nat.dvd_of_mul_dvd_mul_left hpp.pos hpd
            · exact hD' pe hm
          · rw [List.pairwise_cons]; exact ⟨fun a ha => hpw.1 a ha, hpw.2⟩
          · intro q hqp hqd
            by_cases hqp' : q = p
            · left; exact ⟨(p, r - 1), by simp, hqp'.symm⟩
            · rcases hrest q hqp hqd hqp' with ⟨pe, hm, hpe⟩ | h'
              · left; exact ⟨pe, by simp [hm], hpe⟩
              · right; exact h'
        · rw [if_neg hr1]
          refine ih (h / p) D (by omega) hh' heq hD' hpw.2 ?_
          intro q hqp hqd
          by_cases hqp' : q = p
          · exfalso
            subst hqp'
            apply hpnd
            rw [show r = 1 by omega, hmulh, pow_succ', pow_one]
            exact Nat.mul_dvd_mul_left q hqd
          · exact hrest q hqp hqd hqp'

theorem get_order_spec (H : IsPrimeField O p) {x : Nat} (hx : x < p) (h0 : x ≠ 0) :
    O.get_order x = .ok (orderOf (x : ZMod p)) := by
  have := Fact.mk H.prime
  obtain ⟨hf, _, _, _, _, _⟩ := H.spec
  have hp2 := H.prime.two_le
  unfold Obj.get_order
  by_cases h1 : x = 0 ∨ x = 1
  · rw [if_pos h1]
    rcases h1 with h | h
    · exact absurd h h0
    · subst h; simp
  · rw [if_neg h1]
    have hc := H.card
    have hs := do_step_spec H.fits (by rw [hc]; exact H.prime) (x := x) (by omega)
      (orderFuel O.factors) (p - 1) O.factors.reverse (by unfold orderFuel; simp [List.sum_reverse])
      (by omega) (by rw [hc]; exact order_dvd (cast_ne_zero h0 hx))
      (by
        intro pe hm
        rw [List.mem_reverse] at hm
        obtain ⟨a1, a2⟩ := hf.1 pe hm
        have hfac := hf.factorization (p := pe.1) (e := pe.2) hm
        refine ⟨a1, a2, ?_, ?_⟩
        · rw [← hfac]; exact Nat.ordProj_dvd _ _
        · rw [← hfac]; exact Nat.pow_succ_factorization_not_dvd (by omega) a1)
      (by
        rw [List.pairwise_reverse]
        exact hf.2.1.imp (fun h => by omega))
      (by
        intro q hq hqd
        left
        obtain ⟨pe, hm, hpe⟩ := hf.mem hq hqd
        exact ⟨pe, by rw [List.mem_reverse]; exact hm, hpe⟩)
    simp only [cardM1, hc, hs, ok_bind]
    have hne1 : orderOf (x : ZMod p) ≠ 1 := by
      rw [Ne, orderOf_eq_one_iff]
      intro h
      have : x = 1 := cast_inj hx (by omega) (by simpa using h)
      omega
    rw [hc, if_neg hne1]; rfl

end IsPrimeField
end RingModN
end Quad
