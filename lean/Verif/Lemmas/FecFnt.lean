import Verif.Lemmas.FecDec
import Verif.Lemmas.Fft2nPrime
import Verif.Lemmas.Property

/-!
The FNT code, word by word: constructor, encoding, decoding.
-/

namespace Quad
open Finset Polynomial RingModN

variable {p : Nat} [Fact p.Prime] {O : Obj}

theorem RingModN.IsPrimeField.char (H : IsPrimeField O p) : H.sim.Char := by
  have h2 := H.prime.two_le
  refine ⟨fun _ d => ?_, fun d => ?_⟩
  all_goals
    show d % O.ring.card < p ∧ ((d % O.ring.card : Nat) : ZMod p) = d
    rw [H.card]
    exact ⟨Nat.mod_lt _ (by omega), by simp⟩

theorem RingModN.IsPrimeField.oneWord (H : IsPrimeField O p) : H.sim.V O.gf.oneWord ∧ H.sim.φ O.gf.oneWord = 1 := by
  show 1 < p ∧ ((1 : Nat) : ZMod p) = 1
  exact ⟨H.prime.one_lt, by simp⟩

/-- a radix-2 object over a prime field computes the DFT -/
theorem RingModN.IsPrimeField.ftSpec (H : IsPrimeField O p) {L dl pkt : Nat} (hL : 2 ^ L ∣ p - 1) {R : Radix2}
    (hR : Radix2.mk' O.gf (2 ^ L) dl = .ok R) (hdl : 0 < dl) :
    (R.ft pkt).Spec H.sim (2 ^ L) (R.w : ZMod p)
      (fun m => ∃ d, d ≤ L ∧ (if m > dl then m else dl) = 2 ^ d) := by
  have h2 := H.prime.two_le
  have hlt : 2 ^ L < p := by have := Nat.le_of_dvd (by omega) hL; omega
  obtain ⟨S, hV, hφ, _, hG, hd, i1, i2, _⟩ := H.radix2_built hL hR
  rw [if_pos hdl] at hd
  have hsV : ∀ c, H.sim.V c ↔ S.V c := fun c => (hV c).symm
  have hsφ : ∀ c, H.sim.φ c = S.φ c := fun c => (hφ c).symm
  have hroot := hG.root
  rw [hφ] at hroot
  refine ⟨hG.n, by positivity, ?_, hroot, ?_, ?_, ?_⟩
  · exact cast_ne_zero (by positivity) hlt
  · rintro out input h1 ⟨d, hdL, hK⟩ h3
    obtain ⟨r, e, s, h⟩ := Radix2.fft_word hG hdL h1 (by rw [hd]; exact hK) (fun j hj => (hsV _).mp (h3 j hj))
    refine ⟨r, e, s, fun i hi => ⟨(hsV _).mpr (h i hi).1, ?_⟩⟩
    have := (h i hi).2
    rw [hφ R.w] at this
    simp only [hsφ]; exact this
  · intro out input h1 h2 h3
    obtain ⟨r, e, s, h⟩ := Radix2.fft_inv_word hG h1 h2 (fun j hj => (hsV _).mp (h3 j (by omega)))
    refine ⟨r, e, s, fun i hi => ⟨(hsV _).mpr (h i hi).1, ?_⟩⟩
    have := (h i hi).2
    rw [hφ R.w] at this
    simp only [hsφ]; exact this
  · intro out input h1 h2 h3
    obtain ⟨r, e, s, h⟩ := Radix2.ifft_word hG ((hV _).mpr i1) h1 h2 (fun j hj => (hsV _).mp (h3 j (by omega)))
    refine ⟨r, e, s, fun i hi => ⟨(hsV _).mpr (h i hi).1, ?_⟩⟩
    have := (h i hi).2
    rw [hφ R.w, hφ R.inv_n, i2] at this
    simp only [hsφ]; push_cast; exact this

omit [Fact p.Prime] in
/-- the code length over a Fermat field is a power of two -/
theorem RingModN.IsPrimeField.codeLen (H : IsPrimeField O p) {e m : Nat} (hp : p = 2 ^ e + 1) (hm : 2 ≤ m) (hm2 : m ≤ 2 ^ e) :
    ∃ L, O.gf.codeLenHC m = .ok (2 ^ L) ∧ L ≤ e ∧ m ≤ 2 ^ L ∧ 2 ^ L < 2 * m := by
  obtain ⟨hf, ha, _⟩ := H.spec
  have hc : O.ring.cardM1 = 2 ^ e := by unfold RingModN.cardM1; rw [H.card, hp]; rfl
  have hprod : O.all_primes_factors.prod = 2 ^ e := by
    rw [ha, Arith.prod_get_prime_factors, hf.2.2]; omega
  have hlt : 2 ^ e < 2 ^ O.ring.b := by
    have := H.fits.spare; rw [H.card] at this; omega
  obtain ⟨r, seg, e', h1, h2, h3, h4⟩ := Arith.high_compo_factors_spec (b := O.ring.b) (n := m) (fs := O.all_primes_factors)
    (fun f hf' => by
      have : f ∣ O.all_primes_factors.prod := List.dvd_prod hf'
      rw [hprod] at this
      exact Nat.pos_of_dvd_of_pos this (by positivity)) (by rw [hprod]; exact hlt) hm (by rw [hprod]; exact hm2)
  have hd : r ∣ 2 ^ e := by
    obtain ⟨s, t, hst⟩ := h1
    rw [h2, ← hprod, ← hst, List.prod_append, List.prod_append]
    exact Dvd.dvd.mul_right (Dvd.intro_left _ rfl) _
  have hlt2 : r < 2 * m := by
    cases seg with
    | nil => simp only [List.prod_nil] at h2; omega
    | cons f seg =>
      simp only [List.tail_cons] at h4
      have hf' : f ∈ O.all_primes_factors := h1.subset (by simp)
      rw [ha] at hf'
      obtain ⟨pe, hm', hp'⟩ := List.mem_flatMap.mp hf'
      rw [List.mem_replicate] at hp'
      have hf2 : f = 2 := by
        have hpr : f.Prime := by rw [hp'.2]; exact (hf.1 pe hm').1
        have : f ∣ 2 ^ e := by rw [← hprod]; exact List.dvd_prod (h1.subset (by simp))
        exact (Nat.prime_dvd_prime_iff_eq hpr Nat.prime_two).mp (hpr.dvd_of_dvd_pow this)
      rw [h2, List.prod_cons, hf2]
      omega
  obtain ⟨L, hL, rfl⟩ := (Nat.dvd_prime_pow Nat.prime_two).mp hd
  refine ⟨L, ?_, hL, h3, hlt2⟩
  show O.get_code_len_high_compo m = _
  unfold Obj.get_code_len_high_compo
  rw [hc]
  simp only [cassert, hm2, decide_true, if_true, ok_bind]
  exact e'

/-- a generator is not a square -/
theorem RingModN.IsPrimeField.jacobi_root (H : IsPrimeField O p) (hp : p ≠ 2) : Arith.jacobi O.root O.ring.card = .ok (-1) := by
  obtain ⟨_, _, _, h0, h1, h2⟩ := H.spec
  have hodd : p % 2 = 1 := (H.prime.eq_two_or_odd).resolve_left hp
  have h2' := H.prime.two_le
  rw [H.card, Arith.jacobi_eq _ hodd, ← jacobiSym.legendreSym.to_jacobiSym]
  congr 1
  rw [legendreSym.eq_neg_one_iff]
  rintro ⟨y, hy⟩
  have hy' : (O.root : ZMod p) = y * y := by simpa using hy
  have hy0 : y ≠ 0 := by
    rintro rfl
    rw [mul_zero] at hy'
    exact cast_ne_zero (by omega) h1 hy'
  have h3 : (O.root : ZMod p) ^ ((p - 1) / 2) = 1 := by
    rw [hy', ← pow_two, ← pow_mul, show 2 * ((p - 1) / 2) = p - 1 by omega]
    exact ZMod.pow_card_sub_one_eq_one hy0
  have h4 := orderOf_dvd_of_pow_eq_one h3
  rw [h2] at h4
  have := Nat.le_of_dvd (by omega) h4
  omega

namespace RsFnt

theorem powers_spec {F : GF} [F.Plain] {K : Type} [Field K] (S : F.Sim K) {x : Nat} (hx : S.V x) (len : Nat) (mem : Nat → Nat) :
    ∃ r, powers F x len mem = .ok r ∧ r.size = len ∧ ∀ i, i < len → S.V (gt r i) ∧ S.φ (gt r i) = S.φ x ^ i := by
  obtain ⟨r, e, h1, h2⟩ := forN_fill (n := len) (a := fresh mem len) (fun i => F.exp x i) (by simp)
  refine ⟨r, e, by simpa using h1, fun i hi => ?_⟩
  rw [h2, if_pos hi]
  exact S.exp hx

/-- an FNT code object as built by the constructor -/
structure Good (B : FecBase) (p e k m : Nat) [Fact p.Prime] (S : B.F.Sim (ZMod p)) (n len_2k : Nat)
    (g g2 : ZMod p) (okLen : Nat → Prop) : Prop where
  V : ∀ c, S.V c ↔ c < p
  φ : ∀ c, S.φ c = (c : ZMod p)
  hp : p = 2 ^ e + 1
  card : B.F.card = p
  he : e = 8 * B.word_size
  n_data : B.n_data = k
  n_parities : B.n_parities = m
  code_len : B.code_len = k + m
  n_outputs : B.n_outputs = if B.sys then m else k + m
  hn : B.n = n
  le : k + m ≤ n
  lt : n < 2 * (k + m)
  okk : okLen k
  env : DecEnv (fun _ : Unit => S) B.fft B.fft_2k k n len_2k (fun _ => g) (fun _ => g2) okLen
  rpSize : B.r_powers.size = n
  rp : ∀ i, i < n → gt B.r_powers i < p ∧ ((gt B.r_powers i : Nat) : ZMod p) = g ^ i

/-- a radix-2 object over `Z/pZ`, seen through a simulation of its own -/
def FftOver (p L dl : Nat) [Fact p.Prime] (g : ZMod p) (R : Radix2) : Prop :=
  ∃ S : R.F.Sim (ZMod p), (∀ c, S.V c ↔ c < p) ∧ (∀ c, S.φ c = (c : ZMod p)) ∧ S.Neg1 ∧ R.Good S L ∧ R.data_len = dl ∧
    R.inv_n < p ∧ (R.inv_n : ZMod p) = ((2 ^ L : Nat) : ZMod p)⁻¹ ∧ (R.w : ZMod p) = g ∧ R.F.card = p ∧ R.F.cardM1 = p - 1

/-- the transforms the constructor builds -/
structure Ffts (B : FecBase) (p k : Nat) [Fact p.Prime] (S : B.F.Sim (ZMod p)) (n len_2k : Nat) (g g2 : ZMod p) : Prop where
  neg1 : S.Neg1
  cardM1 : B.F.cardM1 = p - 1
  ex : ∃ L L2 d R R2, n = 2 ^ L ∧ len_2k = 2 ^ L2 ∧ L < 31 ∧ L2 < 31 ∧ d ≤ L ∧ k ≤ 2 ^ d ∧ Arith.ceil2 32 k = .ok (2 ^ d) ∧
    Radix2.mk' B.F n (2 ^ d) = .ok R ∧ Radix2.mk' B.F len_2k len_2k = .ok R2 ∧ FftOver p L (2 ^ d) g R ∧
    FftOver p L2 (2 ^ L2) g2 R2

theorem mkBase_all {b db w k m : Nat} (hw : w < 4) (hp : p = 2 ^ (8 * w) + 1)
    (hp2 : p ≠ 2) (hfit : (RingModN.mk b db true p).Fits) (hb : b % 2 = 0) (hk : 0 < k) (hm : 0 < m)
    (hkm : k + m ≤ 2 ^ (8 * w)) (hk2 : 2 * k ≤ 2 ^ (8 * w)) :
    ∃ g : ZMod p, ∀ (sys : Bool) (pkt : Nat) (mem : Nat → Nat),
    ∃ B, mkBase b db sys w k m pkt mem = .ok B ∧ B.sys = sys ∧ B.word_size = w ∧ B.pkt_size = pkt ∧
      ∃ (S : B.F.Sim (ZMod p)) (n len_2k : Nat) (g2 : ZMod p) (okLen : Nat → Prop),
        Good B p (8 * w) k m S n len_2k g g2 okLen ∧ Ffts B p k S n len_2k g g2 := by
  have hprime : p.Prime := Fact.out
  have hb0 : 0 < b := by
    rcases Nat.eq_zero_or_pos b with h | h
    · have h1 := hfit.spare; have h2 := hfit.pos
      simp only [h, pow_zero] at h1 h2; omega
    · exact h
  obtain ⟨O, eO, hring, _⟩ := RingModN.init_spec hfit hprime hb hb0
  have H : IsPrimeField O p := ⟨hprime, by rw [hring], by rw [hring]; exact hfit, by rw [hring], by rw [hring]; exact hb,
    by rw [hring]; exact eO⟩
  have hwrap : wrap b (2 ^ (8 * w) + 1) = p := by
    unfold wrap; rw [← hp]; exact Nat.mod_eq_of_lt (by have := hfit.spare; simp only at this; omega)
  have hp1 : p - 1 = 2 ^ (8 * w) := by omega
  obtain ⟨L, eL, hLe, hnL, hnL'⟩ := H.codeLen hp (m := m + k) (by omega) (by omega)
  obtain ⟨L2, eL2, hLe2, hnL2, _⟩ := H.codeLen hp (m := 2 * k) (by omega) hk2
  have hkL : k < 2 ^ L := by omega
  have hdv : 2 ^ L ∣ p - 1 := by rw [hp1]; exact pow_dvd_pow 2 hLe
  have hdv2 : 2 ^ L2 ∣ p - 1 := by rw [hp1]; exact pow_dvd_pow 2 hLe2
  have h24 : 2 ^ (8 * w) ≤ 2 ^ 24 := Nat.pow_le_pow_right (by omega) (by omega)
  obtain ⟨d, ed, hd1, hd2⟩ := Arith.ceil2_spec (b := 32) (n := k) hk (by norm_num at h24 ⊢; omega)
  have hdL : 2 ^ d ≤ 2 ^ L := hd2 L (by omega)
  have hdL' : d ≤ L := (Nat.pow_le_pow_iff_right (by omega)).mp hdL
  obtain ⟨w0, ew, hw1, hw2⟩ := H.get_nth_root_spec (2 ^ L)
  rw [Nat.gcd_eq_left hdv] at hw2
  obtain ⟨R, eR, hRF, _⟩ := H.radix2 (dl := 2 ^ d) hdv hdL
  obtain ⟨R2, eR2, hRF2, _⟩ := H.radix2 (dl := 2 ^ L2) hdv2 le_rfl
  have hRw : R.w = w0 := by
    obtain ⟨i, ei, _⟩ := H.invN_spec (n := 2 ^ L) (by positivity) (by have := Nat.le_of_dvd (by omega) hdv; omega)
    obtain ⟨R', e', _, _, _, _, h4⟩ := Radix2.mk'_spec H.sim (L := L) (dl := 2 ^ d) (w := w0) (inv_n := i)
      (by show (O.ring.card - 1) % 2 ^ L = 0; rw [H.card]; exact Nat.mod_eq_zero_of_dvd hdv) hdL ew hw1
      (hw2.ne_zero (by positivity)) hw2 ei
    rw [eR] at e'; cases e'; exact h4
  refine ⟨(R.w : ZMod p), fun sys pkt mem => ?_⟩
  have hF := H.ftSpec (pkt := pkt) hdv eR (by positivity)
  have hF2 := H.ftSpec (pkt := pkt) hdv2 eR2 (by positivity)
  obtain ⟨iw, eiw, hiV, hiφ⟩ := H.sim.inv (a := w0) hw1 (hw2.ne_zero (by positivity))
  obtain ⟨P1, eP1, _⟩ := powers_spec H.sim (x := iw) hiV (k + 1) mem
  obtain ⟨P2, eP2, sP2, hP2⟩ := powers_spec H.sim (x := w0) hw1 (2 ^ L) mem
  have hcard : O.gf.card = p := H.card
  have eL' : O.gf.codeLenHC (m + k) = .ok (2 ^ L) := eL
  refine ⟨{ sys := sys, word_size := w, n_data := k, n_parities := m, code_len := k + m,
            n_outputs := if sys then m else k + m, pkt_size := pkt, n := 2 ^ L, r := w0, F := O.gf, fft := R.ft pkt,
            fft_2k := R2.ft pkt, inv_r_powers := P1, r_powers := P2 }, ?_, rfl, rfl, rfl,
    H.sim, 2 ^ L, 2 ^ L2, (R2.w : ZMod p),
    (fun m => ∃ d', d' ≤ L ∧ (if m > 2 ^ d then m else 2 ^ d) = 2 ^ d'), ?_, ?_⟩
  · unfold mkBase
    simp only [cassert, hw, decide_true, if_true, ok_bind, hwrap]
    rw [eO, ok_bind, H.jacobi_root hp2, ok_bind]
    simp only [decide_true, if_true, ok_bind]
    rw [eL', ok_bind]
    have ew' : O.gf.nthRoot (2 ^ L) = .ok w0 := ew
    rw [ew', ok_bind, ed, ok_bind, eR, ok_bind, hcard]
    rw [if_pos (by rw [decide_eq_true_eq]; omega), ok_bind, eL2, ok_bind, eR2, ok_bind, eiw, ok_bind, eP1, ok_bind, eP2, ok_bind]
    rfl
  · refine ⟨fun c => Iff.rfl, fun c => rfl, hp, hcard, rfl, rfl, rfl, rfl, rfl, rfl, by omega, by omega, ?_, ?_, sP2, ?_⟩
    · exact ⟨d, hdL', by rw [if_neg (by omega)]⟩
    · refine ⟨fun _ => H.char, fun _ => H.oneWord, ?_, hk, hkL, by omega, ?_, eL2, fun _ => hF, fun _ => ?_⟩
      · intro _ a h; exact (h ()).2
      · refine ⟨L, le_rfl, ?_⟩
        split <;> omega
      · refine ⟨hF2.n, hF2.pos, hF2.nz, hF2.root, ?_, hF2.fft_inv, hF2.ifft⟩
        intro out input h1 h2 h3
        exact hF2.fft h1 ⟨L2, le_rfl, by rw [h2]; simp⟩ h3
    · intro i hi
      rw [hRw]
      exact hP2 i hi
  · have hL31 : ∀ {l : Nat}, l ≤ 8 * w → l < 31 := fun h => by omega
    have hcM : O.gf.cardM1 = p - 1 := by show O.ring.card - 1 = p - 1; rw [H.card]
    refine ⟨H.neg1, hcM, L, L2, d, R, R2, rfl, rfl, hL31 hLe, hL31 hLe2, hdL', hd1, ed, eR, eR2, ?_, ?_⟩
    · obtain ⟨S, h1, h2, h3, h4, h5, h6, h7, _⟩ := H.radix2_built hdv eR
      exact ⟨S, h1, h2, h3, h4, by rw [h5, if_pos (by positivity)], h6, by rw [h7]; norm_num, rfl, by rw [hRF]; exact hcard, by rw [hRF]; exact hcM⟩
    · obtain ⟨S, h1, h2, h3, h4, h5, h6, h7, _⟩ := H.radix2_built hdv2 eR2
      exact ⟨S, h1, h2, h3, h4, by rw [h5, if_pos (by positivity)], h6, by rw [h7]; norm_num, rfl, by rw [hRF2]; exact hcard, by rw [hRF2]; exact hcM⟩

theorem mkBase_spec {b db w k m pkt : Nat} (sys : Bool) (mem : Nat → Nat) (hw : w < 4) (hp : p = 2 ^ (8 * w) + 1)
    (hp2 : p ≠ 2) (hfit : (RingModN.mk b db true p).Fits) (hb : b % 2 = 0) (hk : 0 < k) (hm : 0 < m)
    (hkm : k + m ≤ 2 ^ (8 * w)) (hk2 : 2 * k ≤ 2 ^ (8 * w)) :
    ∃ B, mkBase b db sys w k m pkt mem = .ok B ∧ B.sys = sys ∧ B.word_size = w ∧ B.pkt_size = pkt ∧
      ∃ (S : B.F.Sim (ZMod p)) (n len_2k : Nat) (g g2 : ZMod p) (okLen : Nat → Prop),
        Good B p (8 * w) k m S n len_2k g g2 okLen := by
  obtain ⟨g, h⟩ := mkBase_all (db := db) hw hp hp2 hfit hb hk hm hkm hk2
  obtain ⟨B, h1, h2, h3, h4, S, n, l, g2, ok, h, _⟩ := h sys pkt mem
  exact ⟨B, h1, h2, h3, h4, S, n, l, g, g2, ok, h⟩

end RsFnt
end Quad
