import Verif.Lemmas.FecFft
import Verif.Spec.FecFft
import Verif.Lemmas.FecGf2nRec

/-!
# The codes on transforms as their constructors build them
-/

namespace Quad
open Finset Polynomial Spec RingModN

private theorem wrap32_of {x : Nat} (h : x < 2 ^ 32) : wrap 32 x = x := Nat.mod_eq_of_lt h

namespace FftCode

variable {K : Type} [Field K]

/-- what the constructors build is good -/
theorem good_of {F : GF} [F.Plain] {S : F.Sim K} {b q w k m n len_2k r : Nat} {fft fft_2k : FT} {ip rp : Array Nat} {g2 : K}
    (D : DftField F b q S) (hC : S.Char) (hone : S.V F.oneWord ∧ S.φ F.oneWord = 1) (hw : WordSize w) (hq1 : 256 ^ w ≤ q)
    (hq2 : q ≤ 2 * 256 ^ w) (hk : 0 < k) (hm : 0 < m) (hle : k + m ≤ n) (hl2 : 2 * k ≤ len_2k) (el2 : F.codeLenHC (2 * k) = .ok len_2k)
    (rV : S.V r) (hf : fft.Spec S n (S.φ r) (fun m => m = n)) (hf2 : fft_2k.Spec S len_2k g2 (fun m => m = len_2k))
    (rs : rp.size = n) (hrp : ∀ i, i < n → S.V (gt rp i) ∧ S.φ (gt rp i) = S.φ r ^ i) :
    Good (K := K) { sys := false, word_size := w, n_data := k, n_parities := m, code_len := k + m, n_outputs := k + m,
                    pkt_size := 8, n := n, r := r, F := F, fft := fft, fft_2k := fft_2k, inv_r_powers := ip, r_powers := rp }
      b q (256 ^ w) k m S n len_2k g2 := by
  refine ⟨inferInstance, D, hq1, hq2, rfl, rfl, hw, rfl, rfl, rfl, rfl, rfl, hle, rV, ?_, rs, hrp⟩
  refine ⟨fun _ => hC, fun _ => hone, ?_, hk, by omega, hl2, rfl, el2, fun _ => hf, fun _ => hf2⟩
  intro _ a h
  exact D.full.u (h ()).1 (h ()).2

/-- a non-systematic code that meets the word-level specification recovers the data from any `k` fragments -/
theorem nsRecovers {Γ : Type} {E : Fec Γ} {st : Array Nat → Nat → Nat} {mk : Array Nat → Nat → Option Nat} (H : E.HSpec st mk)
    {k m : Nat} (hs : E.base.sys = false) (hn : E.base.n_outputs = k + m) (hkd : E.base.n_data = k) (mem : Nat → Nat)
    {data : Array (List Nat)} {T : Nat} (hd : Gf2nData E.base.word_size k data T) : NsRecovers E E.base.word_size k m mem data T := by
  have hrow : Rows E.base.word_size E.base.n_data (gt data) T := by rw [hkd]; exact ⟨hd.full, hd.last⟩
  have hby : ∀ i, i < E.base.n_data → ∀ x ∈ gt data i, x < 256 := by rw [hkd]; exact hd.bytes
  obtain ⟨fr, pr, e, s1, s2, hf⟩ := Fec.encode_streams_horizontal_spec H (data := data)
    (outs := Array.replicate (k + m) []) (props := Array.replicate (k + m) .empty) mem (T := T)
    (by rw [hkd]; exact hd.size) (by simp [hn]) (by simp [hn]) hby hrow
  rw [hn] at s1
  refine ⟨fr, pr, e, s1, ?_, ?_⟩
  · intro f hf'
    rw [(hf f (by omega)).1, gt_replicate hf', List.nil_append, flat_length]
  · intro datas pars outs props' mem' h1 h2 h3 h4 h5
    obtain ⟨res, er, hr⟩ := Fec.decode_streams_horizontal_spec H (D := gt data) (T := T) (datas := datas) (pars := pars)
      (outs := outs) (props := props') mem' hby hrow (fun h => by rw [hs] at h; cases h)
      (by omega) (by omega) (by omega)
      (fun h => by rw [hs] at h; cases h)
      (by
        intro f s hf' hfs
        obtain ⟨q1, q2⟩ := h4 f s (by omega) hfs
        have := hf f hf'
        rw [gt_replicate (by omega), List.nil_append] at this
        exact ⟨by rw [q1, this.1], by rw [q2, this.2]⟩) (fun _ _ => trivial)
    have hdl : E.base.dataList (datas.map Option.isSome) = [] := by
      unfold FecBase.dataList
      rw [if_neg (by rw [hs]; simp)]
    have hpl : (present (pars.map Option.isSome) (k + m)).length = nAvail pars := present_eq_avail pars (by omega)
    have hk0 := H.kpos
    rw [hdl, hn, hkd, hpl, if_neg (by simp; omega), if_neg (by simp; omega)] at hr
    obtain ⟨r1, r2, r3⟩ := hr
    refine ⟨res.2, by rw [er, ← r1], r2, ?_⟩
    intro i hi
    rw [r3 i hi]

/-- a code with good members recovers the data from any `k` fragments -/
theorem recovers {B : FecBase} {b q L k m n len_2k : Nat} {S : B.F.Sim K} {g2 : K} (G : Good B b q L k m S n len_2k g2)
    {post : Array Nat → Array Properties → Nat → Res (Array Nat × Array Properties)}
    {prep : Ctx → Array Properties → Nat → Array Nat → Res (Ctx × Array Nat)} {E : Fec Ctx}
    (hE : Is E B post prep) (hpost : PostSpec B q L post) (hprep : PrepSpec B q L prep) (mem : Nat → Nat)
    {data : Array (List Nat)} {T : Nat} (hd : Gf2nData B.word_size k data T) : NsRecovers E B.word_size k m mem data T := by
  have H := hspec G hE hpost hprep
  have hb := hE.base
  rw [← hb] at hd ⊢
  exact nsRecovers H (by rw [hb, G.sys]) (by rw [hb, G.n_outputs]) (by rw [hb, G.n_data]) mem hd

end FftCode

/-! ### GF(2^n) -/

theorem BinExt.IsBinField.char' {O : BinExt.Obj} {n low : Nat} {K : Type} [Field K] {r : K} (B : BinExt.IsBinField O n low K r) :
    B.sim.Char := by
  have hpos := B.good.H.two_pow_pos
  haveI := B.good.H.char
  have key : ∀ d : Nat, d % 2 < 2 ^ n ∧ bev r (d % 2) = (d : K) := by
    intro d
    refine ⟨by omega, ?_⟩
    have h2 : (2 : K) = 0 := CharTwo.two_eq_zero
    have hd : (d : K) = ((d % 2 : Nat) : K) := by
      conv_lhs => rw [← Nat.div_add_mod d 2]
      rw [Nat.cast_add, Nat.cast_mul, Nat.cast_ofNat, h2, zero_mul, zero_add]
    rw [hd]
    rcases Nat.mod_two_eq_zero_or_one d with h | h
    · rw [h, bev_zero, Nat.cast_zero]
    · rw [h, bev_one, Nat.cast_one]
  exact ⟨fun _ d => key d, fun d => key d⟩

theorem BinExt.IsBinField.oneWord' {O : BinExt.Obj} {n low : Nat} {K : Type} [Field K] {r : K} (B : BinExt.IsBinField O n low K r) :
    B.sim.V O.gf.oneWord ∧ B.sim.φ O.gf.oneWord = 1 := B.sim.one

namespace RsGf2nFft

theorem is_fec (B : FecBase) : FftCode.Is (fec B) B (fun o p _ => pure (o, p)) (fun C _ _ w => pure (C, w)) :=
  ⟨rfl, rfl, fun _ _ _ _ => rfl, fun _ _ _ => rfl, fun _ _ _ _ _ => rfl⟩

theorem post_spec (B : FecBase) (q : Nat) : FftCode.PostSpec B q q (fun o p _ => pure (o, p)) := by
  intro output props off h1 h2 h3
  refine ⟨output, props, rfl, rfl, rfl, fun f hf => ⟨(Nat.mod_eq_of_lt (h3 f hf)).symm, ?_⟩⟩
  rw [if_neg (by have := h3 f hf; omega)]
  rfl

theorem prep_spec (B : FecBase) (q : Nat) : FftCode.PrepSpec B q q (fun C _ _ w => pure (C, w)) := by
  intro C props off words N h1 h2 h3 h4 h5
  refine ⟨C.props_indices, words, rfl, rfl, rfl, fun i hi => ?_⟩
  rw [if_neg (fun h => by have := (h5 i hi h).2; omega), if_neg (fun h => by have := (h5 i hi h).2; omega)]
  exact ⟨rfl, rfl⟩

theorem fftMax_lt (w : Nat) : fftMax w < 2 ^ 31 := by
  unfold fftMax
  split
  · norm_num
  · split <;> norm_num

theorem small_prime {w n p : Nat} {A : List Nat} (hA : ∀ p ∈ A, p ≤ 641) (hp : p.Prime) (hd : p ∣ A.prod) (hpr : ∀ x ∈ A, x.Prime) :
    (p - 1) * (p - 1) < 2 ^ 31 := by
  obtain ⟨a, ha, hpa⟩ := (Nat.prime_iff.1 hp).dvd_prod_iff.mp hd
  have := hA a ha
  have h2 : p ≤ 641 := (Nat.le_of_dvd (hpr a ha).pos hpa).trans this
  calc (p - 1) * (p - 1) ≤ 640 * 640 := Nat.mul_le_mul (by omega) (by omega)
    _ < 2 ^ 31 := by norm_num

theorem mkBase_spec {b w k m : Nat} (h : Gf2nFftParams b w k m) (mem : Nat → Nat) (junk : Nat → Nat → Nat)
    (junk3 : Nat → Nat → Nat → Nat) :
    ∃ (K : Type) (_ : Field K) (B : FecBase) (S : B.F.Sim K) (n len_2k : Nat) (g2 : K), mkBase b w k m mem junk junk3 = .ok B ∧
      B.word_size = w ∧ FftCode.Good B b (256 ^ w) (256 ^ w) k m S n len_2k g2 := by
  haveI := fact_of (size_of h.field.size)
  obtain ⟨O, e, _, _⟩ := exists_binExt h.field junk junk3
  have hO : IsBinExt O b (8 * w) := ⟨h.field, junk, junk3, e⟩
  have D := binDft hO
  have CL : CodeLens O.gf (2 ^ (8 * w)) := binCodeLens hO
  set BF := hO.isBinField.2 with hBF
  obtain ⟨A, C, hfac, hprod, hA⟩ := factors_bin h.hw
  have hAp : ∀ x ∈ A, x.Prime := fun x hx => Nat.prime_of_mem_primeFactorsList (n := 2 ^ (8 * w) - 1) (by rw [hfac]; simp [hx])
  have hw16 : w ≤ 16 := by have := h.hw; simp at this; omega
  have hws : WordSize w := by have := h.hw; simp at this; exact this
  have hk := h.hk
  have hm := h.hm
  have hlen := h.len
  have htwo := h.two
  have hAq : A.prod ∣ 2 ^ (8 * w) - 1 := by
    have := Nat.prod_primeFactorsList (n := 2 ^ (8 * w) - 1) (by have := D.two; omega)
    rw [hfac, List.prod_append] at this
    exact Dvd.intro _ this
  have hA31 : A.prod < 2 ^ 31 := by
    rw [hprod]
    exact fftMax_lt w
  have hA0 : 0 < A.prod := by omega
  obtain ⟨n, en, hnd, hnge⟩ := CL hfac (m := m + k) (by omega) (by omega)
  obtain ⟨l2, el2, hld, hlge⟩ := CL hfac (m := 2 * k) (by omega) (by omega)
  obtain ⟨T1, r, eT1, er, rV, hr, hT1⟩ := ct_spec D mem (n := n) (by omega) (hnd.trans hAq) (by have := Nat.le_of_dvd hA0 hnd; omega)
    (fun p hp hpn => small_prime (w := w) (n := n) hA hp (hpn.trans hnd) hAp)
  obtain ⟨T2, r2, eT2, er2, rV2, hr2, hT2⟩ := ct_spec D mem (n := l2) (by omega) (hld.trans hAq) (by have := Nat.le_of_dvd hA0 hld; omega)
    (fun p hp hpn => small_prime (w := w) (n := n) hA hp (hpn.trans hld) hAp)
  obtain ⟨ir, eir, irV, _⟩ := D.inv rV (n := n) (by omega) hr.pow_eq_one
  obtain ⟨P1, eP1, _⟩ := RsFnt.powers_spec BF.sim (x := ir) irV (k + 1) mem
  obtain ⟨P2, eP2, sP2, hP2⟩ := RsFnt.powers_spec BF.sim (x := r) rV n mem
  have hq : 2 ^ (8 * w) = 256 ^ w := two_pow_8 w
  have G := FftCode.good_of (ip := P1) (w := w) D BF.char' BF.oneWord' hws hq.ge (by omega) hk hm (by omega) hlge el2 rV hT1 hT2 sP2 hP2
  rw [hq] at G
  refine ⟨_, _, _, _, _, _, _, ?_, ?_, G⟩
  · unfold mkBase cassert
    simp only [hw16, decide_true, if_true, ok_bind]
    rw [← bind_assoc, e, ok_bind]
    rw [en, ok_bind, er, ok_bind, eT1, ok_bind, el2, ok_bind, wrap32_of (by have := Nat.le_of_dvd hA0 hld; omega), eT2, ok_bind, eir, ok_bind, eP1, ok_bind, eP2, ok_bind]
    rfl
  · rfl

end RsGf2nFft

/-! ### prime fields -/

theorem Radix2.mk'_zero (F : GF) (n : Nat) : Radix2.mk' F n 0 = Radix2.mk' F n n := by
  unfold Radix2.mk'
  by_cases h : n > 0 <;> simp [cassert, h]

namespace RsGfpFft

variable {p : Nat} {O : Obj}

/-- a radix-2 transform built by `mkFft` -/
theorem mkFft_pow [Fact p.Prime] (H : IsPrimeField O p) {L arg : Nat} (hL : 2 ^ L ∣ p - 1) (harg : arg = 0 ∨ arg = 2 ^ L)
    (b : Nat) (mem : Nat → Nat) :
    ∃ T w, mkFft O.gf b (2 ^ L) arg mem = .ok T ∧ O.gf.nthRoot (2 ^ L) = .ok w ∧ H.sim.V w ∧ IsPrimitiveRoot (H.sim.φ w) (2 ^ L) ∧
      T.Spec H.sim (2 ^ L) (H.sim.φ w) (fun m => m = 2 ^ L) := by
  have h2 := H.prime.two_le
  have hmk : Radix2.mk' O.gf (2 ^ L) arg = Radix2.mk' O.gf (2 ^ L) (2 ^ L) := by
    rcases harg with rfl | rfl
    · exact Radix2.mk'_zero _ _
    · rfl
  obtain ⟨w0, ew, hw1, hw2⟩ := H.get_nth_root_spec (2 ^ L)
  rw [Nat.gcd_eq_left hL] at hw2
  obtain ⟨R, eR, hRF, _⟩ := H.radix2 (dl := 2 ^ L) hL le_rfl
  have hRw : R.w = w0 := by
    obtain ⟨i, ei, _⟩ := H.invN_spec (n := 2 ^ L) (by positivity) (by have := Nat.le_of_dvd (by omega) hL; omega)
    obtain ⟨R', e', _, _, _, _, h4⟩ := Radix2.mk'_spec H.sim (L := L) (dl := 2 ^ L) (w := w0) (inv_n := i)
      (by show (O.ring.card - 1) % 2 ^ L = 0; rw [H.card]; exact Nat.mod_eq_zero_of_dvd hL) le_rfl ew hw1
      (hw2.ne_zero (by positivity)) hw2 ei
    rw [eR] at e'; cases e'; exact h4
  have hF := H.ftSpec (pkt := 0) hL eR (by positivity)
  refine ⟨R.ft 0, w0, ?_, ew, hw1, hw2, ?_⟩
  · unfold mkFft
    rw [if_pos ((Arith.is_power_of_2_iff _).mpr ⟨L, by push_cast; rfl⟩), hmk, eR]; rfl
  · rw [hRw] at hF
    refine ⟨hF.n, hF.pos, hF.nz, hw2, ?_, hF.fft_inv, hF.ifft⟩
    intro out input h1 h2 h3
    exact hF.fft h1 ⟨L, le_rfl, by rw [h2]; simp⟩ h3

/-- a transform built by `mkFft` with second argument 0 -/
theorem mkFft_spec [Fact p.Prime] (H : IsPrimeField O p) {n : Nat} (h2n : 2 ≤ n) (hn : n ∣ p - 1) (hlt : n < 2 ^ 31)
    (hsq : ∀ r, r.Prime → r ∣ n → (r - 1) * (r - 1) < 2 ^ 31) (mem : Nat → Nat) :
    ∃ T w, mkFft O.gf O.ring.b n 0 mem = .ok T ∧ O.gf.nthRoot n = .ok w ∧ H.sim.V w ∧ IsPrimitiveRoot (H.sim.φ w) n ∧
      T.Spec H.sim n (H.sim.φ w) (fun m => m = n) := by
  by_cases hp : ∃ L, n = 2 ^ L
  · obtain ⟨L, rfl⟩ := hp
    exact mkFft_pow H hn (.inl rfl) _ mem
  · obtain ⟨T, w, e, h⟩ := ct_spec (primeDft H) mem h2n hn hlt hsq
    refine ⟨T, w, ?_, h⟩
    unfold mkFft
    rw [if_neg (fun h => hp (by
      obtain ⟨k, hk⟩ := (Arith.is_power_of_2_iff _).mp h
      exact ⟨k, by exact_mod_cast hk⟩))]
    exact e

/-- `CooleyTukey(gf, n, n)` reads past the end of the list of factors -/
theorem mkAt_ub [Fact p.Prime] (H : IsPrimeField O p) {n : Nat} (h2n : 2 ≤ n) (hlt : n < 2 ^ 31) (hn : n ∣ p - 1) (mem : Nat → Nat) :
    CooleyTukey.mkAt O.gf O.ring.b n n mem = ub := by
  have D := primeDft H
  have h2 := H.prime.two_le
  have hnb : n < 2 ^ O.ring.b := by
    have := Nat.le_of_dvd (by omega) hn
    have := D.room
    omega
  obtain ⟨w, ew, w1, w2⟩ := D.root n hn
  obtain ⟨v, ev, _⟩ := D.invN n hn
  obtain ⟨iw, ei, _⟩ := D.inv w1 (D.dvd_pos hn) w2.pow_eq_one
  obtain ⟨fs, ef, f1, _, f3⟩ := Arith.get_prime_factors_spec D.even D.pos hnb (by omega)
  have hlen : fs.length ≤ n := by
    have : 2 ^ fs.length ≤ fs.prod := List.pow_card_le_prod _ _ (fun x hx => (f1 x hx).two_le)
    have h3 := Nat.lt_two_pow_self (n := fs.length)
    omega
  unfold CooleyTukey.mkAt
  rw [ef, ok_bind, ew, ok_bind, List.drop_eq_nil_of_le hlen]
  simp only [CooleyTukey.build, intLen_of hlt, ev, ei, ok_bind]

/-- `CooleyTukey(gf, n, id)` of a length that is negative as an `int` -/
theorem mkAt_negative [Fact p.Prime] (H : IsPrimeField O p) {n id : Nat} (h2n : 2 ≤ n) (h31 : 2 ^ 31 ≤ n) (h32 : n < 2 ^ 32) (hn : n ∣ p - 1)
    (mem : Nat → Nat) : CooleyTukey.mkAt O.gf O.ring.b n id mem = .error (.throws .badAlloc) := by
  have D := primeDft H
  have h2 := H.prime.two_le
  have hnb : n < 2 ^ O.ring.b := by
    have := Nat.le_of_dvd (by omega) hn
    have := D.room
    omega
  obtain ⟨w, ew, w1, w2⟩ := D.root n hn
  obtain ⟨fs, ef, f1, _, f3⟩ := Arith.get_prime_factors_spec D.even D.pos hnb (by omega)
  have hi : intLen n = .error (.throws .badAlloc) := by
    unfold intLen
    rw [Nat.mod_eq_of_lt h32, if_neg (by omega)]
  unfold CooleyTukey.mkAt
  rw [ef, ok_bind, ew, ok_bind]
  cases fs.drop id <;> simp only [CooleyTukey.build, hi] <;> rfl

theorem params4 {x : Nat} (h : params 64 4 = .ok (p, x)) : p = 4294991873 := by
  have h4 : params 64 4 = .ok (4294991873, 256 ^ 4) := by rfl
  exact (Prod.mk.inj (Except.ok.inj (h4.symm.trans h))).1.symm

/-- the code lengths over the field with 4294991873 elements -/
theorem codeLen4 (H : IsPrimeField O 4294991873) {s : Nat} (h2 : 2 ≤ s) (hs : s ≤ 4294991872) :
    ∃ r, O.gf.codeLenHC s = .ok r ∧ s ≤ r ∧ r ∣ 4294991872 ∧ (s ≤ 1073747968 → r ≤ 1073747968) ∧
      (1073747968 < s → r = 2147495936 ∨ r = 4294991872) ∧ (1073747968 < s → s ≤ 2147495936 → r = 2147495936) := by
  obtain ⟨hf, ha, _⟩ := H.spec
  have hfs : O.all_primes_factors = (List.replicate 13 2 ++ [29, 101]) ++ [179] := by
    rw [ha, Arith.factorList_eq hf, ← factors_gfp4]
  have hc : O.ring.cardM1 = 4294991872 := by unfold RingModN.cardM1; rw [H.card]
  have hlt : 4294991872 < 2 ^ O.ring.b := by
    have := H.fits.spare; rw [H.card] at this; omega
  have hpr : O.all_primes_factors.prod = 4294991872 := by rw [hfs]; decide
  obtain ⟨r, seg, e, h1, h2', h3, h4⟩ := Arith.high_compo_factors_spec (b := O.ring.b) (n := s) (fs := O.all_primes_factors)
    (fun f hf' => Nat.pos_of_dvd_of_pos (hpr ▸ List.dvd_prod hf') (by norm_num)) (by rw [hpr]; exact hlt) h2 (by rw [hpr]; exact hs)
  have hd : r ∣ 4294991872 := by
    obtain ⟨a, c, hst⟩ := h1
    rw [h2', ← hpr, ← hst, List.prod_append, List.prod_append]
    exact Dvd.dvd.mul_right (Dvd.intro_left _ rfl) _
  have htab : seg.prod ≤ 1073747968 ∨ (1073747968 ≤ seg.tail.prod ∧ seg.prod = 2147495936) ∨ (2147495936 ≤ seg.tail.prod ∧ seg.prod = 4294991872) := by
    have hall : ∀ l ∈ (((List.replicate 13 2 ++ [29, 101]) ++ [179] : List Nat)).tails, ∀ seg ∈ l.inits,
        seg.prod ≤ 1073747968 ∨ (1073747968 ≤ seg.tail.prod ∧ seg.prod = 2147495936) ∨ (2147495936 ≤ seg.tail.prod ∧ seg.prod = 4294991872) := by decide +kernel
    obtain ⟨a, c, hst⟩ := h1
    refine hall (seg ++ c) ?_ seg ?_
    · rw [List.mem_tails, ← hfs, ← hst, List.append_assoc]
      exact List.suffix_append _ _
    · rw [List.mem_inits]
      exact List.prefix_append _ _
  rw [← h2'] at htab
  refine ⟨r, ?_, h3, hd, fun h => by omega, fun h => by omega, fun h h' => by omega⟩
  show O.get_code_len_high_compo s = _
  unfold RingModN.Obj.get_code_len_high_compo
  rw [hc]
  simp only [cassert, hs, decide_true, if_true, ok_bind]
  exact e

theorem is_fec (b : Nat) (c : FecBase × Nat) : FftCode.Is (fec b c) c.1 (encode_post_process c.1 c.2) (decode_prepare c.1 b c.2) :=
  ⟨rfl, rfl, fun _ _ _ _ => rfl, fun _ _ _ => rfl, fun _ _ _ _ _ => rfl⟩

theorem post_spec {B : FecBase} {q L : Nat} (hL : 0 < L) (hB : B.code_len = B.n_outputs) :
    FftCode.PostSpec B q L (encode_post_process B L) := by
  intro output props off h1 h2 hv
  unfold encode_post_process
  rw [hB]
  obtain ⟨s, e', i1, i2, i3, _⟩ := forN_inv (n := B.n_outputs) (s := (output, props)) (f := fun i s => do
      let v ← rd s.1 i
      if v ≥ L then do
        let P ← rd s.2 i
        let props ← wr s.2 i (P.add off OOR_MARK)
        if L = 0 then ub
        else do
          let output ← wr s.1 i (v % L)
          pure (output, props)
      else pure s)
    (I := fun t (s : Array Nat × Array Properties) => s.1.size = output.size ∧ s.2.size = props.size ∧
      (∀ f, f < t → gt s.1 f = gt output f % L ∧
        gt s.2 f = (gt props f).addMark off (if L ≤ gt output f then some OOR_MARK else none)) ∧
      (∀ f, t ≤ f → gt s.1 f = gt output f ∧ gt s.2 f = gt props f))
    ⟨rfl, rfl, by simp, by simp⟩ (by
      rintro t ⟨o, P⟩ ht ⟨i1, i2, i3, i4⟩
      simp only at i1 i2 i3 i4 ⊢
      rw [rd_gt (a := o) (by omega), ok_bind, (i4 t le_rfl).1]
      by_cases hm : gt output t ≥ L
      · rw [if_pos hm, rd_gt (a := P) (by omega), ok_bind, wr_ok (by omega), ok_bind, if_neg (by omega),
          wr_ok (by omega), ok_bind]
        refine ⟨_, rfl, by simp [i1], by simp [i2], ?_, ?_⟩
        · intro f hf
          simp only
          rw [gt_set (by omega), gt_set (by omega)]
          by_cases h : f = t
          · subst h; rw [if_pos rfl, if_pos rfl, if_pos hm, (i4 f le_rfl).2]; exact ⟨rfl, rfl⟩
          · rw [if_neg h, if_neg h]; exact i3 f (by omega)
        · intro f hf
          simp only
          rw [gt_set (by omega), gt_set (by omega), if_neg (by omega), if_neg (by omega)]
          exact i4 f (by omega)
      · rw [if_neg hm]
        refine ⟨_, rfl, i1, i2, ?_, fun f hf => i4 f (by omega)⟩
        intro f hf
        by_cases h : f = t
        · subst h
          rw [if_neg hm, Nat.mod_eq_of_lt (by omega)]
          exact i4 f le_rfl
        · exact i3 f (by omega))
  exact ⟨s.1, s.2, e', i1, i2, i3⟩

theorem prep_spec {B : FecBase} {b q L : Nat} (hb : q ≤ 2 ^ b) : FftCode.PrepSpec B q L (decode_prepare B b L) := by
  intro C props off words N hids hp hpi hw hm
  obtain ⟨s, e, pi, ws, hs, h1, h2, h3, _⟩ := forN_inv (n := B.n_data) (s := (C, words)) (f := fun i s => do
      let j ← rd s.1.fragments_ids i
      let P ← rd props j
      let idx ← rd s.1.props_indices j
      if P.is_marked idx off then do
        let words ← (if P.marker idx = OOR_MARK then do
            let x ← rd s.2 i
            wr s.2 i (wrap b (x + L))
          else pure s.2)
        let pi ← wr s.1.props_indices j (idx + 1)
        pure ({ s.1 with props_indices := pi }, words)
      else pure s)
    (I := fun t (s : Ctx × Array Nat) => ∃ pi ws, s = ({ C with props_indices := pi }, ws) ∧
      pi.size = C.props_indices.size ∧ ws.size = words.size ∧
      (∀ i, i < t →
        gt ws i = (if (gt props (gt C.fragments_ids i)).is_marked (gt C.props_indices (gt C.fragments_ids i)) off
          then gt words i + L else gt words i) ∧
        gt pi (gt C.fragments_ids i) = gt C.props_indices (gt C.fragments_ids i) +
          (if (gt props (gt C.fragments_ids i)).is_marked (gt C.props_indices (gt C.fragments_ids i)) off then 1 else 0)) ∧
      (∀ i, t ≤ i → i < B.n_data → gt ws i = gt words i ∧ gt pi (gt C.fragments_ids i) = gt C.props_indices (gt C.fragments_ids i)))
    ⟨C.props_indices, words, rfl, rfl, rfl, by simp, by simp⟩ (by
      rintro t _ ht ⟨pi, ws, rfl, i1, i2, i3, i4⟩
      have hl := hids.lt t ht
      simp only
      rw [rd_gt (a := C.fragments_ids) (by rw [hids.size]; omega), ok_bind, rd_gt (a := props) (by omega), ok_bind,
        rd_gt (a := pi) (by omega), ok_bind, (i4 t le_rfl ht).2]
      by_cases hmk : (gt props (gt C.fragments_ids t)).is_marked (gt C.props_indices (gt C.fragments_ids t)) off = true
      · have hwr : wrap b (gt words t + L) = gt words t + L := Nat.mod_eq_of_lt (by have := (hm t ht hmk).2; omega)
        rw [if_pos hmk, if_pos (hm t ht hmk).1, rd_gt (a := ws) (by omega), ok_bind, (i4 t le_rfl ht).1, hwr, wr_ok (by omega),
          ok_bind, wr_ok (by omega), ok_bind]
        refine ⟨_, rfl, _, _, rfl, by simp [i1], by simp [i2], ?_, ?_⟩
        · intro i hi
          rw [gt_set (by omega), gt_set (by omega)]
          by_cases h : i = t
          · subst h; rw [if_pos rfl, if_pos rfl, if_pos hmk, if_pos hmk]; exact ⟨rfl, rfl⟩
          · rw [if_neg h, if_neg (fun he => h (hids.inj i t (by omega) ht he))]
            exact i3 i (by omega)
        · intro i hi hib
          rw [gt_set (by omega), gt_set (by omega), if_neg (by omega),
            if_neg (fun he => by have := hids.inj i t hib ht he; omega)]
          exact i4 i (by omega) hib
      · rw [if_neg hmk]
        refine ⟨_, rfl, pi, ws, rfl, i1, i2, ?_, fun i hi hib => i4 i (by omega) hib⟩
        intro i hi
        by_cases h : i = t
        · subst h; rw [if_neg hmk, if_neg hmk]; exact i4 i le_rfl ht
        · exact i3 i (by omega))
  exact ⟨pi, ws, by rw [← hs]; exact e, h1, h2, h3⟩

/-- the field `init_gf` builds -/
theorem init_gf {b db w : Nat} (hw : ((w = 1 ∨ w = 2) ∧ (b = 32 ∧ db = 64 ∨ b = 64 ∧ db = 128)) ∨ (w = 4 ∧ b = 64 ∧ db = 128)) :
    ∃ p, ∃ O, ∃ _ : IsPrimeField O p, ∃ A C A2 C2, params b w = .ok (p, 256 ^ w) ∧ RingModN.init ⟨b, db, true, p⟩ 0 = .ok O ∧ O.ring = ⟨b, db, true, p⟩ ∧
      p ≠ 2 ∧ 256 ^ w ≤ p ∧ p / 2 < 256 ^ w ∧ p ≤ 2 * 256 ^ w ∧ (p - 1).primeFactorsList = A ++ C ∧ (p - 1).primeFactorsList = A2 ++ C2 ∧
      A.prod = (if w = 4 then 4294991872 else 2 ^ (8 * w)) ∧ A2.prod = (if w = 4 then 2 ^ 13 else 2 ^ (8 * w)) ∧ (∀ x ∈ A, x ≤ 257) := by
  have h257 : Nat.Prime 257 := by norm_num
  have h65537 : Nat.Prime 65537 := by norm_num
  have hpr : ∀ p, p.Prime → (RingModN.mk b db true p).Fits → b % 2 = 0 → 0 < b → ∃ O, ∃ _ : IsPrimeField O p,
      RingModN.init ⟨b, db, true, p⟩ 0 = .ok O ∧ O.ring = ⟨b, db, true, p⟩ := by
    intro p hprime hfit hb hb0
    obtain ⟨O, eO, hring, _⟩ := RingModN.init_spec hfit hprime hb hb0
    exact ⟨O, ⟨hprime, by rw [hring], by rw [hring]; exact hfit, by rw [hring], by rw [hring]; exact hb,
      by rw [hring]; exact eO⟩, eO, hring⟩
  have hsmall : ∀ e, (List.replicate e 2).prod = 2 ^ e ∧ ∀ x ∈ List.replicate e 2, x ≤ 257 := by
    intro e
    refine ⟨List.prod_replicate _ _, fun x hx => ?_⟩
    rw [List.mem_replicate] at hx; omega
  rcases hw with ⟨hw, hT⟩ | ⟨rfl, rfl, rfl⟩
  · have hprime : (2 ^ (8 * w) + 1).Prime := by
      rcases hw with rfl | rfl
      · exact h257
      · exact h65537
    obtain ⟨O, H, e, hb⟩ := hpr _ hprime (by
      rcases hT with ⟨rfl, rfl⟩ | ⟨rfl, rfl⟩ <;> rcases hw with rfl | rfl <;> exact ⟨by decide, by decide, by decide⟩)
      (by rcases hT with ⟨rfl, rfl⟩ | ⟨rfl, rfl⟩ <;> rfl) (by rcases hT with ⟨rfl, rfl⟩ | ⟨rfl, rfl⟩ <;> decide)
    have hw4 : w ≠ 4 := by omega
    refine ⟨_, O, H, List.replicate (8 * w) 2, [], List.replicate (8 * w) 2, [], ?_, e, hb, ?_, ?_, ?_, ?_, ?_, ?_, ?_, ?_, ?_⟩
    · rcases hT with ⟨rfl, rfl⟩ | ⟨rfl, rfl⟩ <;> rcases hw with rfl | rfl <;> decide
    · rcases hw with rfl | rfl <;> decide
    · rcases hw with rfl | rfl <;> decide
    · rcases hw with rfl | rfl <;> decide
    · rcases hw with rfl | rfl <;> decide
    · exact factors_two_pow _
    · exact factors_two_pow _
    · rw [if_neg hw4]; exact (hsmall _).1
    · rw [if_neg hw4]; exact (hsmall _).1
    · exact (hsmall _).2
  · obtain ⟨O, H, e, hb⟩ := hpr 4294991873 prime_gfp4 ⟨by norm_num, by norm_num, by norm_num⟩ rfl (by norm_num)
    refine ⟨_, O, H, _, _, List.replicate 13 2, [29, 101] ++ [179], by rfl, e, hb, by norm_num, by norm_num, by norm_num, by norm_num, (List.append_nil _).symm,
      ?_, ?_, by decide, ?_⟩
    · rw [factors_gfp4, List.append_assoc]
    · rw [factors_gfp4]; decide
    · rw [factors_gfp4]; decide

theorem small_of {A : List Nat} {N : Nat} {C : List Nat} (hf : N.primeFactorsList = A ++ C) (hA : ∀ p ∈ A, p ≤ 257) {p : Nat} (hp : p.Prime)
    (hd : p ∣ A.prod) : (p - 1) * (p - 1) < 2 ^ 31 :=
  RsGf2nFft.small_prime (w := 0) (n := 0) (fun x hx => (hA x hx).trans (by norm_num)) hp hd
    (fun x hx => Nat.prime_of_mem_primeFactorsList (n := N) (by rw [hf]; simp [hx]))

theorem prod_dvd {A C : List Nat} {N : Nat} (h0 : N ≠ 0) (hf : N.primeFactorsList = A ++ C) : A.prod ∣ N := by
  have := Nat.prod_primeFactorsList h0
  rw [hf, List.prod_append] at this
  exact Dvd.intro _ this

/-- everything the constructor does before the second transform -/
theorem mkBase_pre {b db w k m : Nat} (hw : ((w = 1 ∨ w = 2) ∧ (b = 32 ∧ db = 64 ∨ b = 64 ∧ db = 128)) ∨ (w = 4 ∧ b = 64 ∧ db = 128))
    (hk : 0 < k) (hm : 0 < m) (hlen : k + m ≤ if w = 4 then 1073747968 else 2 ^ (8 * w)) (mem : Nat → Nat) :
    ∃ p, ∃ O, ∃ H : IsPrimeField O p, ∃ A2 C2, O.ring = ⟨b, db, true, p⟩ ∧ 256 ^ w ≤ p ∧ p ≤ 2 * 256 ^ w ∧
      (p - 1).primeFactorsList = A2 ++ C2 ∧ A2.prod = (if w = 4 then 2 ^ 13 else 2 ^ (8 * w)) ∧ params b w = .ok (p, 256 ^ w) ∧
      ∃ (_ : Fact p.Prime) (n r : Nat) (fft : FT), k + m ≤ n ∧ n ∣ p - 1 ∧ 2 ≤ n ∧ H.sim.V r ∧ IsPrimitiveRoot (H.sim.φ r) n ∧
        fft.Spec H.sim n (H.sim.φ r) (fun m => m = n) ∧
        mkBase b db w k m mem = (do
          let len_2k ← O.gf.codeLenHC (2 * k)
          let fft_2k ← mkFft O.gf b (wrap 32 len_2k) (wrap 32 len_2k) mem
          let inv_r ← O.gf.inv r
          let inv_r_powers ← RsFnt.powers O.gf inv_r (k + 1) mem
          let r_powers ← RsFnt.powers O.gf r n mem
          pure ({ sys := false, word_size := w, n_data := k, n_parities := m,
                  code_len := k + m, n_outputs := k + m, pkt_size := 8, n := n, r := r, F := O.gf,
                  fft := fft, fft_2k := fft_2k, inv_r_powers := inv_r_powers, r_powers := r_powers }, 256 ^ w)) := by
  obtain ⟨p, O, H, A, C, A2, C2, e1, e2, hR, hp2, hp3, hp4, hp5, f1, f2, pA, pA2, hA⟩ := init_gf hw
  have hb : O.ring.b = b := by rw [hR]
  haveI : Fact p.Prime := ⟨H.prime⟩
  have h2 := H.prime.two_le
  have CL : CodeLens O.gf p := primeCodeLens H
  have hAp : A.prod ∣ p - 1 := prod_dvd (by omega) f1
  obtain ⟨n, en, hnd, hnge, hn31⟩ : ∃ n, O.gf.codeLenHC (m + k) = .ok n ∧ n ∣ A.prod ∧ m + k ≤ n ∧ n < 2 ^ 31 := by
    by_cases h4 : w = 4
    · rw [if_pos h4] at hlen pA
      subst h4
      have hp : p = 4294991873 := by
        rcases hw with ⟨h, _⟩ | ⟨_, rfl, rfl⟩
        · omega
        · exact params4 e1
      subst hp
      obtain ⟨n, en, hge, hd, hlo, _⟩ := codeLen4 H (s := m + k) (by omega) (by omega)
      exact ⟨n, en, by rw [pA]; exact hd, hge, by have := hlo (by omega); omega⟩
    · rw [if_neg h4] at hlen pA
      obtain ⟨n, en, hnd, hnge⟩ := CL f1 (m := m + k) (by omega) (by omega)
      have : 2 ^ (8 * w) ≤ 2 ^ 16 := Nat.pow_le_pow_right (by omega) (by omega)
      have := Nat.le_of_dvd (by rw [pA]; positivity) hnd
      exact ⟨n, en, hnd, hnge, by norm_num at *; omega⟩
  have hA0 : 0 < A.prod := Nat.pos_of_dvd_of_pos hAp (by omega)
  obtain ⟨T1, r, eT1, er, rV, hr, hT1⟩ := mkFft_spec H (n := n) (by omega) (hnd.trans hAp) hn31
    (fun q hq hqn => small_of f1 hA hq (hqn.trans hnd)) mem
  refine ⟨p, O, H, A2, C2, hR, hp3, hp5, f2, pA2, e1, inferInstance, n, r, T1, by omega, hnd.trans hAp, by omega, rV, hr, hT1, ?_⟩
  unfold mkBase
  rw [e1, ok_bind]
  simp only [cassert, hp3, hp4, ge_iff_le, decide_true, if_true, ok_bind]
  rw [e2, ok_bind, H.jacobi_root hp2, ok_bind]
  simp only [decide_true, if_true, ok_bind]
  rw [hb] at eT1
  rw [en, ok_bind, er, ok_bind, eT1, ok_bind]

/-- the object, and its field -/
theorem mkBase_field {b db w k m : Nat} (h : GfpParams b db w k m) (mem : Nat → Nat) :
    ∃ (p : Nat) (_ : Fact p.Prime) (B : FecBase) (S : B.F.Sim (ZMod p)) (n len_2k : Nat) (g2 : ZMod p),
      mkBase b db w k m mem = .ok (B, 256 ^ w) ∧ B.word_size = w ∧ p ≤ 2 ^ b ∧
      FftCode.Good B b p (256 ^ w) k m S n len_2k g2 ∧ (∀ c, S.φ c = (c : ZMod p)) ∧ 2 * 256 ^ w ≤ 2 ^ b ∧
      ∀ x a, x < 2 * 256 ^ w → a < p → B.F.mul x a = x * a % p := by
  have hk := h.hk
  have hm := h.hm
  have hword := h.word
  have hw : ((w = 1 ∨ w = 2) ∧ (b = 32 ∧ db = 64 ∨ b = 64 ∧ db = 128)) ∨ (w = 4 ∧ b = 64 ∧ db = 128) := by
    rcases hword with ⟨h1, h2, _⟩ | ⟨h1, h2, h3, _⟩
    · exact .inl ⟨h1, h2⟩
    · exact .inr ⟨h1, h2, h3⟩
  have hlen : k + m ≤ if w = 4 then 1073747968 else 2 ^ (8 * w) := by
    rcases hword with ⟨h1, h2, h3, _⟩ | ⟨h1, h2, _, h4, _⟩
    · rw [if_neg (by omega)]; exact h3
    · rw [if_pos h1]; exact h4
  have htwo : 2 * k ≤ if w = 4 then 2 ^ 13 else 2 ^ (8 * w) := by
    rcases hword with ⟨h1, h2, h3, h4⟩ | ⟨h1, h2, _, _, h4⟩
    · rw [if_neg (by omega)]; exact h4
    · rw [if_pos h1]; exact h4
  obtain ⟨p, O, H, A2, C2, hR, hp3, hp5, f2, pA2, _, _, n, r, T1, hn1, hn2, hn3, rV, hr, hT1, eq⟩ := mkBase_pre hw hk hm hlen mem
  have hb : O.ring.b = b := by rw [hR]
  have h2 := H.prime.two_le
  have D := primeDft H
  rw [hb] at D
  have CL : CodeLens O.gf p := primeCodeLens H
  obtain ⟨l2, el2, hld, hlge⟩ := CL f2 (m := 2 * k) (by omega) (by omega)
  have hpow : ∃ e, A2.prod = 2 ^ e := by
    rw [pA2]; split <;> exact ⟨_, rfl⟩
  obtain ⟨e, he⟩ := hpow
  have hld' := hld
  rw [he] at hld'
  obtain ⟨L2, _, rfl⟩ := (Nat.dvd_prime_pow Nat.prime_two).mp hld'
  obtain ⟨T2, r2, eT2, er2, rV2, hr2, hT2⟩ := mkFft_pow H (hld.trans (prod_dvd (by omega) f2)) (.inr rfl) b mem
  obtain ⟨ir, eir, irV, _⟩ := D.inv rV (n := n) (by omega) hr.pow_eq_one
  obtain ⟨P1, eP1, _⟩ := RsFnt.powers_spec H.sim (x := ir) irV (k + 1) mem
  obtain ⟨P2, eP2, sP2, hP2⟩ := RsFnt.powers_spec H.sim (x := r) rV n mem
  have hws : WordSize w := by
    unfold WordSize; omega
  have G := FftCode.good_of (ip := P1) (w := w) D H.char H.oneWord hws hp3 hp5 hk hm hn1 hlge el2 rV hT1 hT2 sP2 hP2
  have hb2 : 2 * 256 ^ w ≤ 2 ^ b := by
    rcases hw with ⟨rfl | rfl, ⟨rfl, rfl⟩ | ⟨rfl, rfl⟩⟩ | ⟨rfl, rfl, rfl⟩ <;> norm_num
  have hdb : 2 * 256 ^ w * (2 * 256 ^ w) ≤ 2 ^ db := by
    rcases hw with ⟨rfl | rfl, ⟨rfl, rfl⟩ | ⟨rfl, rfl⟩⟩ | ⟨rfl, rfl, rfl⟩ <;> norm_num
  refine ⟨p, inferInstance, _, _, _, _, _, ?_, rfl, D.room, G, fun c => rfl, hb2, fun x a hx ha => ?_⟩
  · rw [eq, el2, ok_bind, wrap32_of (by
      have := Nat.le_of_dvd (by rw [pA2]; split <;> positivity) hld
      rw [pA2] at this
      have h16 : (if w = 4 then 2 ^ 13 else 2 ^ (8 * w)) ≤ 2 ^ 16 := by
        split
        · norm_num
        · exact Nat.pow_le_pow_right (by omega) (by omega)
      norm_num at *; omega), eT2, ok_bind, eir, ok_bind, eP1, ok_bind, eP2, ok_bind]
    rfl
  · show wrap O.ring.db (x * a) % O.ring.card = _
    rw [hR]
    show wrap db (x * a) % p = _
    rw [show wrap db (x * a) = x * a from Nat.mod_eq_of_lt ((Nat.mul_lt_mul'' hx (by omega : a < 2 * 256 ^ w)).trans_le hdb)]

theorem mkBase_spec {b db w k m : Nat} (h : GfpParams b db w k m) (mem : Nat → Nat) :
    ∃ (p : Nat) (_ : Fact p.Prime) (B : FecBase) (S : B.F.Sim (ZMod p)) (n len_2k : Nat) (g2 : ZMod p),
      mkBase b db w k m mem = .ok (B, 256 ^ w) ∧ B.word_size = w ∧ p ≤ 2 ^ b ∧
      FftCode.Good B b p (256 ^ w) k m S n len_2k g2 := by
  obtain ⟨p, i, B, S, n, l2, g2, h1, h2, h3, h4, _⟩ := mkBase_field h mem
  exact ⟨p, i, B, S, n, l2, g2, h1, h2, h3, h4⟩

theorem not_pow4 {l : Nat} (hge : 8192 < l) (hd : l ∣ 4294991872) : ¬ (Arith.is_power_of_2 (l : Int) = true) := by
  intro h
  obtain ⟨e, he⟩ := (Arith.is_power_of_2_iff _).mp h
  have he' : l = 2 ^ e := by exact_mod_cast he
  have he13 : 13 < e := by
    by_contra hc
    have : 2 ^ e ≤ 2 ^ 13 := Nat.pow_le_pow_right (by omega) (by omega)
    norm_num at this; omega
  have h14 : 2 ^ 14 ∣ 4294991872 := (Nat.pow_dvd_pow 2 (show 14 ≤ e by omega)).trans (he' ▸ hd)
  norm_num at h14

/-- with words of 4 bytes and more than 4096 data fragments the second transform is not a power of two, and its
constructor reads past the end of the list of factors, or needs a length that is no `int` -/
theorem mkBase_second {k m : Nat} (hm : 0 < m) (hlen : k + m ≤ 1073747968) (hk : 4096 < k) (mem : Nat → Nat) :
    mkBase 64 128 4 k m mem = if k ≤ 536873984 then ub else .error (.throws .badAlloc) := by
  obtain ⟨p, O, H, A2, C2, hb, hp3, hp5, f2, pA2, ep, _, n, r, T1, hn1, hn2, hn3, rV, hr, hT1, eq⟩ :=
    mkBase_pre (w := 4) (.inr ⟨rfl, rfl, rfl⟩) (show 0 < k by omega) hm hlen mem
  replace hb : O.ring.b = 64 := by rw [hb]
  have hp := params4 ep
  subst hp
  obtain ⟨l2, el2, hlge, hld, hlo, _, hmid⟩ := codeLen4 H (s := 2 * k) (by omega) (by omega)
  have hnp := not_pow4 (by omega) hld
  by_cases h : k ≤ 536873984
  · have h31 := hlo (by omega)
    rw [if_pos h, eq, el2, ok_bind, wrap32_of (by omega)]
    unfold mkFft
    rw [if_neg hnp]
    have := mkAt_ub H (n := l2) (by omega) (by omega) hld mem
    rw [hb] at this
    rw [this]
    rfl
  · have hl2 : l2 = 2147495936 := hmid (by omega) (by omega)
    rw [if_neg h, eq, el2, ok_bind, wrap32_of (by omega)]
    unfold mkFft
    rw [if_neg hnp]
    have := mkAt_negative H (n := l2) (id := l2) (by omega) (by omega) (by omega) hld mem
    rw [hb] at this
    rw [this]
    rfl

/-- with words of 4 bytes and more than 1073747968 fragments, as many as an `unsigned` can count, the first transform, or the one it
is made of, is of a length that is negative as an `int` -/
theorem mkBase_first {k m : Nat} (hlen : 1073747968 < k + m) (hlt : k + m < 2 ^ 32) (mem : Nat → Nat) :
    mkBase 64 128 4 k m mem = .error (.throws .badAlloc) := by
  obtain ⟨p, O, H, A, C, A2, C2, e1, e2, hR, hp2, hp3, hp4, hp5, f1, f2, pA, pA2, hA⟩ := init_gf (b := 64) (db := 128) (w := 4) (.inr ⟨rfl, rfl, rfl⟩)
  have hb : O.ring.b = 64 := by rw [hR]
  haveI : Fact p.Prime := ⟨H.prime⟩
  have hp := params4 e1
  subst hp
  have D := primeDft H
  obtain ⟨n, en, hge, hd, _, hhi, _⟩ := codeLen4 H (s := m + k) (by omega) (by omega)
  have hn := hhi (by omega)
  obtain ⟨r, er, rV, hr⟩ := D.root n hd
  have hT : mkFft O.gf 64 n 0 mem = .error (.throws .badAlloc) := by
    unfold mkFft
    rw [if_neg (not_pow4 (by omega) hd)]
    rcases hn with rfl | rfl
    · have := mkAt_negative H (n := 2147495936) (id := 0) (by omega) (by omega) (by omega) hd mem
      rw [hb] at this
      exact this
    · have ef : Arith.get_prime_factors 64 4294991872 = .ok ((List.replicate 13 2 ++ [29, 101]) ++ [179]) := by
        obtain ⟨fs, ef, g1, g2, g3⟩ := Arith.get_prime_factors_spec (b := 64) (nb := 4294991872) (by norm_num) (by norm_num) (by norm_num) (by norm_num)
        rw [ef, ← factors_gfp4]
        have := Nat.primeFactorsList_unique g3 g1
        have := this.eq_of_pairwise (le := (· ≤ ·)) (fun a b _ _ => Nat.le_antisymm) g2 (Nat.primeFactorsList_sorted _).pairwise
        rw [this]
      obtain ⟨v, ev, _⟩ := H.invN_spec (n := 24576) (by norm_num) (by norm_num)
      obtain ⟨v2, ev2, _⟩ := H.invN_spec (n := 2) (by norm_num) (by norm_num)
      obtain ⟨iw, ei, _⟩ := D.inv rV (D.dvd_pos hd) hr.pow_eq_one
      have h1 : intLen 4294991872 = .ok 24576 := by unfold intLen; norm_num
      have h2 : intLen 2147495936 = .error (.throws .badAlloc) := by unfold intLen; norm_num
      unfold CooleyTukey.mkAt
      rw [ef, ok_bind, er, ok_bind]
      have hds : ((List.replicate 13 2 ++ [29, 101]) ++ [179] : List Nat).drop 0 = 2 :: 2 :: (List.replicate 11 2 ++ [29, 101, 179]) := by rfl
      rw [hds, CooleyTukey.build, h1, ok_bind, ev, ok_bind, ei, ok_bind]
      have hd2 : 4294991872 / 2 = 2147495936 := by norm_num
      simp only [CooleyTukey.outer, Size2.mk', ev2, ok_bind, hd2, CooleyTukey.build, h2]
      rfl
  unfold mkBase
  rw [e1, ok_bind]
  simp only [cassert, hp3, hp4, ge_iff_le, decide_true, if_true, ok_bind]
  rw [e2, ok_bind, H.jacobi_root hp2, ok_bind]
  simp only [decide_true, if_true, ok_bind]
  rw [en, ok_bind, er, ok_bind, hT]
  rfl

theorem mkBase_ub {k m : Nat} (hm : 0 < m) (hlen : k + m ≤ 1073747968) (hk : 4096 < k) (hk' : k ≤ 536873984) (mem : Nat → Nat) :
    mkBase 64 128 4 k m mem = ub := by
  rw [mkBase_second hm hlen hk, if_pos hk']

end RsGfpFft
end Quad
