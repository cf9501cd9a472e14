import Verif.Lemmas.Fft2n
import Verif.Lemmas.RingRoot

/-! The radix-2 transform over a prime field. -/

namespace Quad
open RingModN

/-! ### results in words -/

section Words
open Finset
variable {K : Type} [Field K] {R : Radix2} {S : R.F.Sim K} {L : Nat} (hG : R.Good S L)

theorem dft_ext {β : Type} [Inhabited β] {C : Cell β} {M : Type} [AddCommGroup M] [Module K M]
    (cs : CellSim C S M) {input : Array β} {N : Nat} (h : input.size ≤ N) (w : K) (i : Nat) :
    dft w N (cs.ext input) i = ∑ j ∈ range input.size, w ^ (i * j) • cs.π (gt input j) := by
  unfold dft
  rw [← sum_subset (range_subset_range.mpr h)]
  · apply sum_congr rfl
    intro j hj
    unfold CellSim.ext; rw [if_pos (mem_range.mp hj)]
  · intro j _ hj
    unfold CellSim.ext; rw [if_neg (fun h => hj (mem_range.mpr h)), smul_zero]

include hG in
theorem Radix2.fft_word {d : Nat} (hd : d ≤ L) {out input : Array Nat} (hout : out.size = 2 ^ L)
    (hK : (if input.size > R.data_len then input.size else R.data_len) = 2 ^ d)
    (hin : ∀ j, j < input.size → S.V (gt input j)) :
    ∃ r, R.fft out input = .ok r ∧ r.size = 2 ^ L ∧ ∀ i, i < 2 ^ L → S.V (gt r i) ∧
      S.φ (gt r i) = ∑ j ∈ range input.size, S.φ R.w ^ (i * j) * S.φ (gt input j) := by
  obtain ⟨r, e, h1, h2⟩ := fftG_spec hG (wordSim S) hd hout hK hin
  have hle : input.size ≤ 2 ^ L := by
    have : 2 ^ d ≤ 2 ^ L := Nat.pow_le_pow_right (by omega) hd
    split at hK <;> omega
  refine ⟨r, e, h1, fun i hi => ⟨(h2 i hi).1, ?_⟩⟩
  have := (h2 i hi).2
  rw [dft_ext _ hle] at this
  exact this

include hG in
theorem Radix2.fft_inv_word {out input : Array Nat} (hout : out.size = 2 ^ L) (hin0 : input.size = 2 ^ L)
    (hin : ∀ j, j < input.size → S.V (gt input j)) :
    ∃ r, R.fft_inv out input = .ok r ∧ r.size = 2 ^ L ∧ ∀ i, i < 2 ^ L → S.V (gt r i) ∧
      S.φ (gt r i) = ∑ j ∈ range (2 ^ L), (S.φ R.w)⁻¹ ^ (i * j) * S.φ (gt input j) := by
  obtain ⟨r, e, h1, h2⟩ := fft_inv_spec hG (wordSim S) hout hin0 hin
  refine ⟨r, e, h1, fun i hi => ⟨(h2 i hi).1, ?_⟩⟩
  have := (h2 i hi).2
  rw [dft_ext _ hin0.le, hin0] at this
  exact this

include hG in
theorem Radix2.ifft_word (hV : S.V R.inv_n) {out input : Array Nat} (hout : out.size = 2 ^ L)
    (hin0 : input.size = 2 ^ L) (hin : ∀ j, j < input.size → S.V (gt input j)) :
    ∃ r, R.ifft out input = .ok r ∧ r.size = 2 ^ L ∧ ∀ i, i < 2 ^ L → S.V (gt r i) ∧
      S.φ (gt r i) = S.φ R.inv_n * ∑ j ∈ range (2 ^ L), (S.φ R.w)⁻¹ ^ (i * j) * S.φ (gt input j) := by
  obtain ⟨r, e, h1⟩ := fft_inv_spec hG (wordSim S) hout hin0 hin
  obtain ⟨r', e', h1', h2'⟩ := scaleAll_spec (wordSim S) (wordSim_scales S hV) h1
  refine ⟨r', by unfold Radix2.ifft; rw [e, ok_bind]; exact e', h1', fun i hi => ⟨(h2' i hi).1, ?_⟩⟩
  have := (h2' i hi).2
  simp only [dft_ext _ hin0.le, hin0] at this
  exact this

/-- packets of `pkt` valid words -/
def Pkts (S : R.F.Sim K) (pkt : Nat) (a : Array (Array Nat)) : Prop :=
  ∀ j, j < a.size → (gt a j).size = pkt ∧ ∀ c, c < pkt → S.V (gt (gt a j) c)

include hG in
theorem Radix2.fft_pkt {d pkt : Nat} (hd : d ≤ L) {out input : Array (Array Nat)} (hout : out.size = 2 ^ L)
    (hin0 : 0 < input.size) (hdl : 0 < R.data_len)
    (hK : (if input.size > R.data_len then input.size else R.data_len) = 2 ^ d)
    (hin : Pkts S pkt input) :
    ∃ r, R.fftBufG (pktCell R.F pkt) out input = .ok r ∧ r.size = 2 ^ L ∧ Pkts S pkt r ∧
      ∀ i, i < 2 ^ L → ∀ c, c < pkt →
      S.φ (gt (gt r i) c) = ∑ j ∈ range input.size, S.φ R.w ^ (i * j) * S.φ (gt (gt input j) c) := by
  obtain ⟨r, e, h1, h2⟩ := fftBufG_spec hG (pktSim S pkt) hd hout hin0 hdl hK hin
  have hle : input.size ≤ 2 ^ L := by
    have : 2 ^ d ≤ 2 ^ L := Nat.pow_le_pow_right (by omega) hd
    split at hK <;> omega
  refine ⟨r, e, h1, fun i hi => (h2 i (by omega)).1, fun i hi c hc => ?_⟩
  have := (h2 i hi).2
  rw [dft_ext _ hle] at this
  have := congrFun this ⟨c, hc⟩
  rw [Finset.sum_apply] at this
  exact this

include hG in
theorem Radix2.fft_inv_pkt {pkt : Nat} (hL : L < 31) {out input : Array (Array Nat)} (hout : out.size = 2 ^ L)
    (hos : ∀ i, i < 2 ^ L → (gt out i).size = pkt)
    (hin0 : 0 < input.size) (hin1 : input.size ≤ 2 ^ L) (hin : Pkts S pkt input) :
    ∃ r, R.fftInvBufG (pktCell R.F pkt) out input = .ok r ∧ r.size = 2 ^ L ∧ Pkts S pkt r ∧
      ∀ i, i < 2 ^ L → ∀ c, c < pkt →
      S.φ (gt (gt r i) c) = ∑ j ∈ range input.size, (S.φ R.w)⁻¹ ^ (i * j) * S.φ (gt (gt input j) c) := by
  obtain ⟨r, e, h1, h2⟩ := fftInvBufG_spec hG (pktSim S pkt) hL hout hin0 hin1 hos hin
  refine ⟨r, e, h1, fun i hi => (h2 i (by omega)).1, fun i hi c hc => ?_⟩
  have := (h2 i hi).2
  rw [dft_ext _ hin1] at this
  have := congrFun this ⟨c, hc⟩
  rw [Finset.sum_apply] at this
  exact this

include hG in
theorem Radix2.ifft_pkt {pkt : Nat} (hL : L < 31) (hS : S.Neg1) (hV : S.V R.inv_n)
    {out input : Array (Array Nat)} (hout : out.size = 2 ^ L)
    (hos : ∀ i, i < 2 ^ L → (gt out i).size = pkt)
    (hin0 : 0 < input.size) (hin1 : input.size ≤ 2 ^ L) (hin : Pkts S pkt input) :
    ∃ r, R.ifftBufG (pktCell R.F pkt) out input = .ok r ∧ r.size = 2 ^ L ∧ Pkts S pkt r ∧
      ∀ i, i < 2 ^ L → ∀ c, c < pkt →
      S.φ (gt (gt r i) c)
        = S.φ R.inv_n * ∑ j ∈ range input.size, (S.φ R.w)⁻¹ ^ (i * j) * S.φ (gt (gt input j) c) := by
  obtain ⟨r, e, h1⟩ := fftInvBufG_spec hG (pktSim S pkt) hL hout hin0 hin1 hos hin
  obtain ⟨r', e', h1', h2'⟩ := scaleAll_spec (pktSim S pkt) (pktSim_scales S hS hV) h1
  refine ⟨r', by unfold Radix2.ifftBufG; rw [e, ok_bind]; exact e', h1',
    fun i hi => (h2' i (by omega)).1, fun i hi c hc => ?_⟩
  have := (h2' i hi).2
  simp only [dft_ext _ hin1] at this
  have := congrFun this ⟨c, hc⟩
  rw [Pi.smul_apply, Finset.sum_apply] at this
  exact this

end Words

namespace RingModN.IsPrimeField
variable {O : Obj} {p : Nat} [Fact p.Prime]

/-- the simulation of a prime field object -/
def sim (H : IsPrimeField O p) : O.gf.Sim (ZMod p) :=
  RingModN.sim O H.card H.fits H.sgn

theorem neg1 (H : IsPrimeField O p) : H.sim.Neg1 := by
  have h2 := H.prime.two_le
  refine ⟨?_, ?_, rfl⟩
  · intro c hc
    have : c < p := hc
    show c ≤ O.ring.card - 1
    rw [H.card]; omega
  · show ((O.ring.card - 1 : Nat) : ZMod p) = -1
    rw [H.card, Nat.cast_sub (by omega)]; simp

theorem invN_spec (H : IsPrimeField O p) {n : Nat} (h0 : 0 < n) (hn : n < p) :
      ∃ i, O.gf.invN n = .ok i ∧ i < p ∧ (i : ZMod p) = (n : ZMod p)⁻¹ := by
  obtain ⟨r, e, h1, h2⟩ := H.sim.inv (a := n) hn (cast_ne_zero (by omega) hn)
  have h1' : r < p := h1
  refine ⟨r, ?_, h1, h2⟩
  show O.get_inv_n_mod_p n = _
  unfold Obj.get_inv_n_mod_p
  have e' : O.ring.inv n = .ok r := e
  have hc := H.card
  rw [e', ok_bind, if_neg (by omega), hc, Nat.mod_eq_of_lt h1']; rfl

/-- what the constructor builds over a prime field -/
theorem radix2 (H : IsPrimeField O p) {L dl : Nat} (hL : 2 ^ L ∣ p - 1) (hdl : dl ≤ 2 ^ L) :
    ∃ R, Radix2.mk' O.gf (2 ^ L) dl = .ok R ∧ R.F = O.gf ∧ (∃ S : R.F.Sim (ZMod p), (∀ c, S.V c ↔ c < p) ∧
        (∀ c, S.φ c = (c : ZMod p)) ∧ S.Neg1 ∧ R.Good S L) ∧
      R.data_len = (if dl > 0 then dl else 2 ^ L) ∧ R.inv_n < p ∧
      (R.inv_n : ZMod p) = ((2 : ZMod p) ^ L)⁻¹ ∧ R.w < p := by
  have h2 := H.prime.two_le
  have hlt : 2 ^ L < p := by
    have := Nat.le_of_dvd (by omega) hL; omega
  obtain ⟨i, ei, hi1, hi2⟩ := H.invN_spec (n := 2 ^ L) (by positivity) hlt
  obtain ⟨w, ew, hw1, hw2⟩ := H.get_nth_root_spec (2 ^ L)
  rw [Nat.gcd_eq_left hL] at hw2
  obtain ⟨R, e, hF, ⟨S, s1, s2, s3, s4⟩, h1, h3, h4⟩ := Radix2.mk'_spec H.sim (L := L) (dl := dl) (w := w) (inv_n := i)
    (by show (O.ring.card - 1) % 2 ^ L = 0; rw [H.card]; exact Nat.mod_eq_zero_of_dvd hL) hdl ew hw1
    (hw2.ne_zero (by positivity)) hw2 ei
  refine ⟨R, e, hF, ⟨S, fun c => (s1 c).trans Iff.rfl, fun c => (s2 c).trans rfl, s3 H.neg1, s4⟩, h1, by rw [h3]; exact hi1,
    by rw [h3, hi2]; push_cast; rfl, by rw [h4]; exact hw1⟩

/-- data about an object the constructor returned -/
theorem radix2_built (H : IsPrimeField O p) {L dl : Nat} (hL : 2 ^ L ∣ p - 1) {R : Radix2}
    (hR : Radix2.mk' O.gf (2 ^ L) dl = .ok R) :
    ∃ S : R.F.Sim (ZMod p), (∀ c, S.V c ↔ c < p) ∧ (∀ c, S.φ c = (c : ZMod p)) ∧ S.Neg1 ∧ R.Good S L ∧
      R.data_len = (if dl > 0 then dl else 2 ^ L) ∧ R.inv_n < p ∧
      (R.inv_n : ZMod p) = ((2 : ZMod p) ^ L)⁻¹ ∧ R.w < p := by
  have hdl : dl ≤ 2 ^ L := by
    by_contra hc
    unfold Radix2.mk' at hR
    cases hi : O.gf.invN (2 ^ L) with
    | error e => rw [hi] at hR; cases hR
    | ok i =>
      rw [hi, ok_bind] at hR
      simp only [cassert, ge_iff_le, decide_eq_false hc, Bool.false_eq_true, if_false, error_bind] at hR
      cases hR
  obtain ⟨R', e, hF, ⟨S, s1, s2, s3, s4⟩, h1, h2, h3, h4⟩ := H.radix2 hL hdl
  rw [hR] at e
  cases e
  exact ⟨S, s1, s2, s3, s4, h1, h2, h3, h4⟩

theorem radix2_F {O : RingModN.Obj} {n dl : Nat} {R : Radix2} (hR : Radix2.mk' O.gf n dl = .ok R) : R.F = O.gf := by
  unfold Radix2.mk' at hR
  simp only [bind, Except.bind] at hR
  repeat' split at hR
  all_goals first | cases hR; done | skip
  all_goals first | (cases hR; rfl) | skip

end RingModN.IsPrimeField

end Quad
