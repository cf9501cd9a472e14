import Verif.Props.Fec
import Verif.Props.FecNf4Vert
import Verif.Props.FecFft
import Verif.Props.Residue
import Verif.Props.FftOverflow
import Verif.Lemmas.LongFft
import Verif.Lemmas.FecFftBuild
import Verif.Lemmas.LongCode

/-!
# C48: which parameters the constructors accept

A code of `n_data` and `n_parities` fragments needs as many different points in its field as it has fragments, and the decoders of the
codes on transforms need `2 * n_data` more.  The constructors should refuse everything else.

The numbers of fragments are of type `unsigned`: these theorems are about numbers whose sum is one too (and, for a `T` of 16 bits, a `T`).  Beyond,
the sum wraps: see Props/Counts.lean.
-/

namespace Quad.Props
open Quad RingModN Spec

/-- the constructor refuses: an assertion fails or an exception is thrown -/
def Refused {α : Type} (r : Res α) : Prop := r = .error .assertFail ∨ ∃ e, r = .error (.throws e)

theorem codeLen_refused {O : RingModN.Obj} {n : Nat} (h : O.ring.card - 1 < n) : O.gf.codeLenHC n = .error .assertFail := by
  show O.get_code_len_high_compo n = _
  unfold RingModN.Obj.get_code_len_high_compo RingModN.cardM1
  have : ¬ n ≤ O.ring.card - 1 := by omega
  simp only [cassert, this, decide_false]
  rfl

/-- the field of 3-byte words: `2^24 + 1` is composite, and 2 is taken for a primitive root -/
theorem init_three {b db : Nat} (hT : WordType b db) :
    ∃ O, RingModN.init ⟨b, db, true, wrap b (2 ^ (8 * 3) + 1)⟩ 0 = .ok O ∧ Arith.jacobi O.root O.ring.card = .ok 1 := by
  rcases hT with ⟨rfl, rfl⟩ | ⟨rfl, rfl⟩
  · have h : (match RingModN.init ⟨32, 64, true, wrap 32 (2 ^ (8 * 3) + 1)⟩ 0 with
      | .ok O => decide (Arith.jacobi O.root O.ring.card = .ok 1) | .error _ => false) = true := by decide +kernel
    split at h
    · exact ⟨_, ‹_›, of_decide_eq_true h⟩
    · cases h
  · have h : (match RingModN.init ⟨64, 128, true, wrap 64 (2 ^ (8 * 3) + 1)⟩ 0 with
      | .ok O => decide (Arith.jacobi O.root O.ring.card = .ok 1) | .error _ => false) = true := by decide +kernel
    split at h
    · exact ⟨_, ‹_›, of_decide_eq_true h⟩
    · cases h

theorem init_zero {b db : Nat} (hT : WordType b db) :
    ∃ e, RingModN.init ⟨b, db, true, wrap b (2 ^ (8 * 0) + 1)⟩ 0 >>= (fun O => Arith.jacobi O.root O.ring.card) = .error (.throws e) := by
  rcases hT with ⟨rfl, rfl⟩ | ⟨rfl, rfl⟩
  · exact ⟨.domainError, by decide +kernel⟩
  · exact ⟨.domainError, by decide +kernel⟩

theorem fnt_refused {b db w k m pkt : Nat} (sys : Bool) (hT' : WordType b db ∨ (b = 16 ∧ db = 32 ∧ w = 1)) (hk : 0 < k) (hm : 0 < m) (mem : Nat → Nat)
    (h : ¬ FntParams w k m) : Refused (RsFnt.mkBase b db sys w k m pkt mem) := by
  unfold RsFnt.mkBase
  by_cases hw4 : w < 4
  swap
  · left
    simp only [cassert, hw4, decide_false]
    rfl
  simp only [cassert, hw4, decide_true, if_true, ok_bind]
  by_cases h0 : w = 0
  · subst h0
    right
    obtain ⟨e, he⟩ := init_zero (hT'.resolve_right (by omega))
    refine ⟨e, ?_⟩
    rcases hi : RingModN.init ⟨b, db, true, wrap b (2 ^ (8 * 0) + 1)⟩ 0 with e' | O
    · rw [hi] at he
      cases he
      rfl
    · rw [hi, ok_bind] at he
      rw [ok_bind, he]
      rfl
  by_cases h3 : w = 3
  · subst h3
    left
    obtain ⟨O, e1, e2⟩ := init_three (hT'.resolve_right (by omega))
    rw [e1, ok_bind, e2, ok_bind]
    rfl
  left
  have hw : w = 1 ∨ w = 2 := by omega
  have hpr : (2 ^ (8 * w) + 1).Prime := by
    rcases hw with rfl | rfl
    · exact prime257
    · exact prime65537
  haveI : Fact (2 ^ (8 * w) + 1).Prime := ⟨hpr⟩
  have hfit : (RingModN.mk b db true (2 ^ (8 * w) + 1)).Fits := by
    rcases hT' with (⟨rfl, rfl⟩ | ⟨rfl, rfl⟩) | ⟨rfl, rfl, rfl⟩
    · rcases hw with rfl | rfl <;> exact ⟨by decide, by decide, by decide⟩
    · rcases hw with rfl | rfl <;> exact ⟨by decide, by decide, by decide⟩
    · exact ⟨by decide, by decide, by decide⟩
  have hb : b % 2 = 0 ∧ 0 < b := by rcases hT' with (⟨rfl, rfl⟩ | ⟨rfl, rfl⟩) | ⟨rfl, rfl, _⟩ <;> decide
  obtain ⟨O, eO, hring, _⟩ := RingModN.init_spec hfit hpr hb.1 hb.2
  have H : IsPrimeField O (2 ^ (8 * w) + 1) := ⟨hpr, by rw [hring], by rw [hring]; exact hfit, by rw [hring], by rw [hring]; exact hb.1,
    by rw [hring]; exact eO⟩
  have hpos : 0 < 2 ^ (8 * w) := by positivity
  have hwrap : wrap b (2 ^ (8 * w) + 1) = 2 ^ (8 * w) + 1 :=
    Nat.mod_eq_of_lt (by have := hfit.spare; simp only at this; omega)
  have h2 : 2 ^ (8 * w) + 1 ≠ 2 := by rcases hw with rfl | rfl <;> decide
  have h16 : 2 ^ (8 * w) ≤ 2 ^ 16 := Nat.pow_le_pow_right (by omega) (by omega)
  rw [hwrap, eO, ok_bind, H.jacobi_root h2, ok_bind]
  simp only [decide_true, if_true, ok_bind]
  by_cases hlen : k + m ≤ 2 ^ (8 * w)
  · have htwo : ¬ 2 * k ≤ 2 ^ (8 * w) := fun h' => h ⟨hw, hk, hm, hlen, h'⟩
    obtain ⟨L, eL, hLe, hnL, hnL'⟩ := H.codeLen rfl (m := m + k) (by omega) (by omega)
    have hdv : 2 ^ L ∣ 2 ^ (8 * w) + 1 - 1 := by rw [Nat.add_sub_cancel]; exact pow_dvd_pow 2 hLe
    obtain ⟨d, ed, hd1, hd2⟩ := Arith.ceil2_spec (b := 32) (n := k) hk (by norm_num at h16 ⊢; omega)
    obtain ⟨w0, ew, hw1, hw2⟩ := H.get_nth_root_spec (2 ^ L)
    obtain ⟨R, eR, hRF, _⟩ := H.radix2 (dl := 2 ^ d) hdv (hd2 L (by omega))
    have ew' : O.gf.nthRoot (2 ^ L) = .ok w0 := ew
    have hcard : O.gf.card = 2 ^ (8 * w) + 1 := H.card
    have eL' : O.gf.codeLenHC (m + k) = .ok (2 ^ L) := eL
    rw [eL', ok_bind, ew', ok_bind, ed, ok_bind, eR, ok_bind, hcard]
    rw [if_neg (by rw [decide_eq_true_eq]; omega)]
    rfl
  · rw [codeLen_refused (by rw [H.card]; omega)]
    rfl

/-- C48, `RsFnt`: the constructor accepts exactly the parameters the code works for, and refuses the others. -/
theorem C48_fnt {b db w k m pkt : Nat} (sys : Bool) (hT : WordType b db) (hk : 0 < k) (hm : 0 < m) (_hlt : k + m < 2 ^ 32) (mem : Nat → Nat) :
    ((∃ B, RsFnt.mkBase b db sys w k m pkt mem = .ok B) ↔ (w = 1 ∨ w = 2) ∧ k + m ≤ 2 ^ (8 * w) ∧ 2 * k ≤ 2 ^ (8 * w)) ∧
    ((∃ B, RsFnt.mkBase b db sys w k m pkt mem = .ok B) ∨ Refused (RsFnt.mkBase b db sys w k m pkt mem)) := by
  by_cases h : FntParams w k m
  · haveI : Fact (2 ^ (8 * w) + 1).Prime := ⟨h.prime⟩
    obtain ⟨B, e, _⟩ := h.build hT sys pkt mem
    exact ⟨⟨fun _ => ⟨h.hw, h.len, h.two⟩, fun _ => ⟨B, e⟩⟩, .inl ⟨B, e⟩⟩
  · have hr := fnt_refused (pkt := pkt) sys (.inl hT) hk hm mem h
    refine ⟨⟨fun ⟨B, e⟩ => ?_, fun ⟨h1, h2, h3⟩ => absurd ⟨h1, hk, hm, h2, h3⟩ h⟩, .inr hr⟩
    rcases hr with hr | ⟨x, hr⟩ <;> rw [e] at hr <;> cases hr

/-- C48, `RsFnt<uint16_t>` with words of one byte -/
theorem C48_fnt_uint16 {k m pkt : Nat} (sys : Bool) (hk : 0 < k) (hm : 0 < m) (_hlt : k + m < 2 ^ 16) (mem : Nat → Nat) :
    ((∃ B, RsFnt.mkBase 16 32 sys 1 k m pkt mem = .ok B) ↔ k + m ≤ 256 ∧ 2 * k ≤ 256) ∧
    ((∃ B, RsFnt.mkBase 16 32 sys 1 k m pkt mem = .ok B) ∨ Refused (RsFnt.mkBase 16 32 sys 1 k m pkt mem)) := by
  by_cases h : k + m ≤ 256 ∧ 2 * k ≤ 256
  · have hc : FntCode.Ok ⟨16, 32, 1, k, m, sys⟩ := ⟨.inr (.inr ⟨rfl, rfl, rfl⟩), .inl rfl, hk, hm, h.1, h.2⟩
    obtain ⟨H, R, e⟩ := C23_new hc (simd := none) (fun R h => by cases h) pkt mem (fun _ _ => 0) #[]
    obtain ⟨B, eB, _⟩ := bind_ok e
    exact ⟨⟨fun _ => h, fun _ => ⟨B, eB⟩⟩, .inl ⟨B, eB⟩⟩
  · have hr := fnt_refused (pkt := pkt) (w := 1) sys (.inr ⟨rfl, rfl, rfl⟩) hk hm mem (fun h' => h ⟨h'.len, h'.two⟩)
    refine ⟨⟨fun ⟨B, e⟩ => ?_, fun h' => absurd h' h⟩, .inr hr⟩
    rcases hr with hr | ⟨x, hr⟩ <;> rw [e] at hr <;> cases hr

/-- the second transform of a packed code with more than 32768 data fragments cannot be built -/
theorem nf4_second {b n k : Nat} {simd : Option (Nat × (Nat → Nat))} {N : NF4} {O : NF4.Obj} (H : IsNf4 N b n simd) (hO : N.init = .ok O)
    (h2 : 65536 < 2 * k) {l : Nat} {R : Radix2} (el : O.gf.codeLenHC (2 * k) = .ok l) (eR : Radix2.mk' O.gf l l = .ok R) : False := by
  obtain ⟨hN, hf⟩ := H.init_factors hO
  have hodd := Spec.IsNf4.word_one_odd H.build.pos
  have hprod : O.all_primes_factors.prod = N.h := by
    rw [hf, List.prod_append, List.prod_replicate, Nat.prod_primeFactorsList (by omega), ← H.h_eq]
  have hl : 2 * k ≤ l := by
    have el' : O.get_code_len_high_compo (2 * k) = .ok l := el
    unfold NF4.Obj.get_code_len_high_compo at el'
    rw [hN] at el'
    by_cases hc : 2 * k ≤ N.h
    · simp only [cassert, hc, decide_true, if_true, ok_bind] at el'
      obtain ⟨r, e, hd, hle⟩ := Arith.high_compo_prefix (b := b) (n := 2 * k) (fs := O.all_primes_factors) (A := O.all_primes_factors) (C := []) (by simp) (by
        intro f hf'
        have : f ∣ O.all_primes_factors.prod := List.dvd_prod hf'
        rw [hprod] at this
        exact Nat.pos_of_dvd_of_pos this (by have := H.h_pos; omega)) (by rw [hprod]; exact H.h_lt) (by omega) (by rw [hprod]; exact hc)
      rw [H.nb] at el'
      rw [el'] at e
      cases e
      exact hle
    · simp only [cassert, hc, decide_false] at el'
      cases el'
  unfold Radix2.mk' at eR
  obtain ⟨_, _, eR⟩ := bind_ok eR
  obtain ⟨_, _, eR⟩ := bind_ok eR
  rw [if_neg (by omega)] at eR
  have hp : O.gf.p = 65537 := rfl
  rw [hp, if_pos (by rw [Nat.mod_eq_of_lt (by omega)]; omega)] at eR
  cases eR

/-- C48, `RsNf4`: the constructor accepts exactly word sizes from 2 to 8 with at most 65536 fragments, of which at most 32768 data
fragments; other word sizes and longer codes fail an assertion. -/
theorem C48_nf4 {b w k m pkt : Nat} {simd : Option (Nat × (Nat → Nat))} (hB : 2 ≤ w → w ≤ 8 → Nf4Build b (w / 2) simd)
    (hk : 0 < k) (hm : 0 < m) (_hlt : k + m < 2 ^ 32) (mem : Nat → Nat) :
    ((∃ c, RsNf4.mkCode b simd w k m pkt mem = .ok c) ↔ 2 ≤ w ∧ w ≤ 8 ∧ k + m ≤ 65536 ∧ 2 * k ≤ 65536) ∧
    (¬ (2 ≤ w ∧ w ≤ 8 ∧ k + m ≤ 65536) → Refused (RsNf4.mkCode b simd w k m pkt mem)) := by
  by_cases hw : 2 ≤ w ∧ w ≤ 8
  swap
  · have hr : RsNf4.mkCode b simd w k m pkt mem = .error .assertFail := by
      unfold RsNf4.mkCode
      by_cases h1 : 2 ≤ w
      · have h2 : ¬ w ≤ 8 := fun h => hw ⟨h1, h⟩
        simp only [cassert, ge_iff_le, h1, h2, decide_true, decide_false, if_true, ok_bind]
        rfl
      · simp only [cassert, ge_iff_le, h1, decide_false]
        rfl
    refine ⟨⟨fun ⟨c, e⟩ => ?_, fun ⟨h1, h2, _⟩ => absurd ⟨h1, h2⟩ hw⟩, fun _ => .inl hr⟩
    rw [e] at hr; cases hr
  obtain ⟨h1, h2⟩ := hw
  obtain ⟨N, eN, H⟩ := C15_constructor (hB h1 h2)
  obtain ⟨O, hO, hON, _⟩ := H.init_spec
  have hlong : ¬ k + m ≤ 65536 → RsNf4.mkCode b simd w k m pkt mem = .error .assertFail := by
    intro hlen
    unfold RsNf4.mkCode
    simp only [cassert, ge_iff_le, h1, h2, decide_true, if_true, ok_bind]
    rw [eN, ok_bind, hO, ok_bind, codeLen_refused (by rw [H.sub_field.card]; omega)]
    rfl
  refine ⟨⟨fun ⟨c, e⟩ => ?_, fun ⟨_, _, h3, h4⟩ => ?_⟩, fun h => .inl (hlong (fun h3 => h ⟨h1, h2, h3⟩))⟩
  · have hlen : k + m ≤ 65536 := by
      by_contra hlen
      rw [hlong hlen] at e; cases e
    refine ⟨h1, h2, hlen, ?_⟩
    by_contra htwo
    unfold RsNf4.mkCode at e
    obtain ⟨_, _, e⟩ := bind_ok e
    obtain ⟨_, _, e⟩ := bind_ok e
    obtain ⟨N', eN', e⟩ := bind_ok e
    rw [eN] at eN'; cases eN'
    obtain ⟨O', eO', e⟩ := bind_ok e
    rw [hO] at eO'; cases eO'
    obtain ⟨_, _, e⟩ := bind_ok e
    obtain ⟨_, _, e⟩ := bind_ok e
    obtain ⟨_, _, e⟩ := bind_ok e
    obtain ⟨_, _, e⟩ := bind_ok e
    obtain ⟨l, el, e⟩ := bind_ok e
    obtain ⟨R, eR, e⟩ := bind_ok e
    exact nf4_second H hO (by omega) el eR
  · obtain ⟨c, e, _⟩ := C32_constructor (pkt := pkt) h1 h2 (hB h1 h2) hk hm h3 h4 mem
    exact ⟨c, e⟩

theorem gfp_init_three {b db : Nat} (hT : WordType b db) : RsGfpFft.params b 3 = .ok (wrap b (2 ^ (8 * 3) + 1), 2 ^ 24) := by
  rcases hT with ⟨rfl, rfl⟩ | ⟨rfl, rfl⟩ <;> rfl

theorem gfp_long {b db w k m : Nat} (hw : ((w = 1 ∨ w = 2) ∧ WordType b db) ∨ (w = 4 ∧ b = 64 ∧ db = 128)) (mem : Nat → Nat)
    {p l : Nat} (hp : RsGfpFft.params b w = .ok (p, l)) (hlen : p - 1 < k + m) : RsGfpFft.mkBase b db w k m mem = .error .assertFail := by
  obtain ⟨p', O, H, A, C, A2, C2, e1, e2, hb, hp2, hp3, hp4, hp5, f1, f2, pA, pA2, hA⟩ := RsGfpFft.init_gf hw
  rw [hp] at e1
  cases e1
  haveI : Fact p.Prime := ⟨H.prime⟩
  unfold RsGfpFft.mkBase
  rw [hp, ok_bind]
  simp only [cassert, hp3, hp4, ge_iff_le, decide_true, if_true, ok_bind]
  rw [e2, ok_bind, H.jacobi_root hp2, ok_bind]
  simp only [decide_true, if_true, ok_bind]
  rw [codeLen_refused (by rw [H.card]; omega)]
  rfl

theorem gfp_params {b db w : Nat} (hw : w = 1 ∨ w = 2) (hT : WordType b db) : RsGfpFft.params b w = .ok (2 ^ (8 * w) + 1, 2 ^ (8 * w)) := by
  rcases hT with ⟨rfl, rfl⟩ | ⟨rfl, rfl⟩ <;> rcases hw with rfl | rfl <;> rfl

/-- C48, `RsGfpFft`: word sizes 0, 3 and above 4 are refused; with words of one or two bytes the constructor accepts exactly what the field
has elements for, and refuses the rest; with words of 4 bytes it accepts exactly at most 1073747968 fragments of which at most 4096 data
fragments.  Missing: with words of 4 bytes, more than 4096 and at most 536873984 data fragments read outside an array instead of being
refused (`C31_constructor_reads_out_of_bounds`). -/
theorem C48_gfp_partial {b db w k m : Nat} (hT : WordType b db) (hb : w = 4 → b = 64) (hk : 0 < k) (hm : 0 < m) (hlt : k + m < 2 ^ 32) (mem : Nat → Nat) :
    (w ≠ 1 ∧ w ≠ 2 ∧ w ≠ 4 → Refused (RsGfpFft.mkBase b db w k m mem)) ∧
    (w = 1 ∨ w = 2 → ((∃ c, RsGfpFft.mkBase b db w k m mem = .ok c) ↔ k + m ≤ 2 ^ (8 * w) ∧ 2 * k ≤ 2 ^ (8 * w)) ∧
      ((∃ c, RsGfpFft.mkBase b db w k m mem = .ok c) ∨ Refused (RsGfpFft.mkBase b db w k m mem))) ∧
    (w = 4 → ((∃ c, RsGfpFft.mkBase b db w k m mem = .ok c) ↔ k + m ≤ 1073747968 ∧ 2 * k ≤ 8192) ∧
      (1073747968 < k + m ∨ 536873984 < k → Refused (RsGfpFft.mkBase b db w k m mem))) := by
  refine ⟨fun ⟨h1, h2, h4⟩ => ?_, fun hw => ?_, fun hw => ?_⟩
  · unfold RsGfpFft.mkBase
    by_cases h0 : w = 0
    · subst h0
      left
      rcases hT with ⟨rfl, rfl⟩ | ⟨rfl, rfl⟩ <;> rfl
    · by_cases h3 : w = 3
      · subst h3
        left
        obtain ⟨O, e1, e2⟩ := init_three hT
        rw [gfp_init_three hT, ok_bind]
        have hge : wrap b (2 ^ (8 * 3) + 1) = 2 ^ 24 + 1 := by rcases hT with ⟨rfl, rfl⟩ | ⟨rfl, rfl⟩ <;> rfl
        rw [hge] at e1 ⊢
        simp only [cassert, e1, e2, ok_bind]
        norm_num
      · left
        unfold RsGfpFft.params
        rw [if_neg (by omega), if_neg h4]
        rfl
  · have hp := gfp_params hw hT
    by_cases hlen : k + m ≤ 2 ^ (8 * w)
    · by_cases htwo : 2 * k ≤ 2 ^ (8 * w)
      · obtain ⟨p, _, B, S, n, l2, g2, e, _⟩ := RsGfpFft.mkBase_spec (b := b) (db := db) (w := w) (k := k) (m := m) ⟨.inl ⟨hw, hT, hlen, htwo⟩, hk, hm⟩ mem
        exact ⟨⟨fun _ => ⟨hlen, htwo⟩, fun _ => ⟨_, e⟩⟩, .inl ⟨_, e⟩⟩
      · have hr : RsGfpFft.mkBase b db w k m mem = .error .assertFail := by
          obtain ⟨p, O, H, A2, C2, hb, hp3, hp5, f2, pA2, e1, _, n, r, T1, hn1, hn2, hn3, rV, hr, hT1, eq⟩ :=
            RsGfpFft.mkBase_pre (b := b) (db := db) (w := w) (.inl ⟨hw, hT⟩) hk hm (by rw [if_neg (by omega)]; exact hlen) mem
          rw [hp] at e1
          have := (Prod.mk.inj (Except.ok.inj e1)).1
          rw [eq, codeLen_refused (by rw [H.card]; omega)]
          rfl
        exact ⟨⟨fun ⟨c, e⟩ => (by rw [e] at hr; cases hr), fun h => absurd h.2 htwo⟩, .inr (.inl hr)⟩
    · have hr := gfp_long (k := k) (m := m) (.inl ⟨hw, hT⟩) mem hp (by omega)
      exact ⟨⟨fun ⟨c, e⟩ => (by rw [e] at hr; cases hr), fun h => absurd h.1 hlen⟩, .inr (.inl hr)⟩
  · subst hw
    have hb := hb rfl
    subst hb
    have hdb : db = 128 := by rcases hT with ⟨h, _⟩ | ⟨_, h⟩ <;> omega
    subst hdb
    by_cases hlen : k + m ≤ 1073747968
    · by_cases htwo : 2 * k ≤ 8192
      · obtain ⟨p, _, B, S, n, l2, g2, e, _⟩ := RsGfpFft.mkBase_spec (b := 64) (db := 128) (w := 4) (k := k) (m := m)
          ⟨.inr ⟨rfl, rfl, rfl, hlen, htwo⟩, hk, hm⟩ mem
        exact ⟨⟨fun _ => ⟨hlen, htwo⟩, fun _ => ⟨_, e⟩⟩, fun h => by omega⟩
      · have hr := RsGfpFft.mkBase_second (k := k) hm hlen (by omega) mem
        refine ⟨⟨fun ⟨c, e⟩ => ?_, fun h => absurd h.2 htwo⟩, fun h => ?_⟩
        · rw [e] at hr
          split at hr <;> cases hr
        · rw [if_neg (by omega)] at hr
          exact .inr ⟨_, hr⟩
    · have hr := RsGfpFft.mkBase_first (k := k) (m := m) (by omega) hlt mem
      exact ⟨⟨fun ⟨c, e⟩ => (by rw [e] at hr; cases hr), fun h => absurd h.1 hlen⟩, fun _ => .inr ⟨_, hr⟩⟩

theorem bin_codeLen_refused {O : BinExt.Obj} {b n k : Nat} (h : IsBinExt O b n) (hk : 2 ^ n - 1 < k) : O.gf.codeLenHC k = .error .assertFail := by
  haveI := h.fact
  show O.get_code_len_high_compo k = _
  unfold BinExt.Obj.get_code_len_high_compo
  rw [h.isBinField.2.good.cardM1_eq]
  have : ¬ k ≤ 2 ^ n - 1 := by omega
  simp only [cassert, this, decide_false]
  rfl

/-- C48, `RsGf2nFft` with words of one or two bytes: the constructor accepts exactly the parameters the code works for, `n_data + n_parities` and
`2 * n_data` below the size of the field, and refuses the others. -/
theorem C48_gf2n_fft {b w k m : Nat} (hw2 : w = 1 ∨ w = 2) (hF : BinSupported b (8 * w)) (hk : 0 < k) (hm : 0 < m) (_hlt : k + m < 2 ^ min 32 b) (mem : Nat → Nat)
    (junk : Nat → Nat → Nat) (junk3 : Nat → Nat → Nat → Nat) :
    ((∃ B, RsGf2nFft.mkBase b w k m mem junk junk3 = .ok B) ↔ k + m < 2 ^ (8 * w) ∧ 2 * k < 2 ^ (8 * w)) ∧
    ((∃ B, RsGf2nFft.mkBase b w k m mem junk junk3 = .ok B) ∨ Refused (RsGf2nFft.mkBase b w k m mem junk junk3)) := by
  have hw : w ∈ [1, 2, 4, 8, 16] := by rcases hw2 with rfl | rfl <;> simp
  haveI := fact_of (size_of hF.size)
  obtain ⟨O, e, _, _⟩ := exists_binExt hF junk junk3
  have hO : IsBinExt O b (8 * w) := ⟨hF, junk, junk3, e⟩
  have hw16 : w ≤ 16 := by simp at hw; omega
  have hpos : 0 < 2 ^ (8 * w) := by positivity
  have hlong : 2 ^ (8 * w) ≤ k + m → RsGf2nFft.mkBase b w k m mem junk junk3 = .error .assertFail := by
    intro hlen
    unfold RsGf2nFft.mkBase
    simp only [cassert, hw16, decide_true, if_true, ok_bind]
    rw [← bind_assoc, e, ok_bind, bin_codeLen_refused hO (by omega)]
    rfl
  by_cases hlen : k + m < 2 ^ (8 * w)
  swap
  · have hr := hlong (by omega)
    exact ⟨⟨fun ⟨c, e⟩ => (by rw [e] at hr; cases hr), fun h => absurd h.1 hlen⟩, .inr (.inl hr)⟩
  have hmin : fftMax w = 2 ^ (8 * w) - 1 := by rcases hw2 with rfl | rfl <;> rfl
  by_cases htwo : 2 * k < 2 ^ (8 * w)
  · obtain ⟨K, _, B, S, n, l2, g2, e, _⟩ := RsGf2nFft.mkBase_spec (b := b) (w := w) (k := k) (m := m)
      ⟨hw, hF, hk, hm, by rw [hmin]; omega, by rw [hmin]; omega⟩ mem junk junk3
    exact ⟨⟨fun _ => ⟨hlen, htwo⟩, fun _ => ⟨_, e⟩⟩, .inl ⟨_, e⟩⟩
  · have hr : RsGf2nFft.mkBase b w k m mem junk junk3 = .error .assertFail := by
      have D := binDft hO
      have CL : CodeLens O.gf (2 ^ (8 * w)) := binCodeLens hO
      obtain ⟨A, C, hfac, hprod, hA⟩ := factors_bin hw
      rw [hmin] at hprod
      have hAp : ∀ x ∈ A, x.Prime := fun x hx => Nat.prime_of_mem_primeFactorsList (n := 2 ^ (8 * w) - 1) (by rw [hfac]; simp [hx])
      obtain ⟨n, en, hnd, hnge⟩ := CL hfac (m := m + k) (by omega) (by omega)
      have hA31 : A.prod < 2 ^ 31 := by
        rw [hprod, ← hmin]
        exact RsGf2nFft.fftMax_lt w
      have hA0 : 0 < A.prod := by rw [hprod]; omega
      obtain ⟨T1, r, eT1, er, rV, hr, hT1⟩ := ct_spec D mem (n := n) (by omega) (hprod ▸ hnd) (by have := Nat.le_of_dvd hA0 hnd; omega)
        (fun p hp hpn => RsGf2nFft.small_prime (w := w) (n := n) hA hp (hpn.trans hnd) hAp)
      unfold RsGf2nFft.mkBase
      simp only [cassert, hw16, decide_true, if_true, ok_bind]
      rw [← bind_assoc, e, ok_bind, en, ok_bind, er, ok_bind, eT1, ok_bind, bin_codeLen_refused hO (by omega)]
      rfl
    exact ⟨⟨fun ⟨c, e⟩ => (by rw [e] at hr; cases hr), fun h => absurd h.2 htwo⟩, .inr (.inl hr)⟩

/-- a divisor of `2^32 - 1` above 65535 is a multiple of 65537 -/
theorem long_divisor {n : Nat} (hn : n ∣ 2 ^ 32 - 1) (h : 65535 < n) : 65537 ∣ n := by
  by_contra hc
  have hp : Nat.Prime 65537 := by norm_num
  have hcop : Nat.Coprime n 65537 := ((Nat.Prime.coprime_iff_not_dvd hp).2 hc).symm
  have : n ∣ 65537 * 65535 := by rw [show 65537 * 65535 = 2 ^ 32 - 1 by norm_num]; exact hn
  have := Nat.le_of_dvd (by norm_num) (hcop.dvd_of_dvd_mul_left this)
  omega

/-- C48, `RsGf2nFft` with words of 4 bytes: the constructor accepts exactly at most 65535 fragments, of which at most 32767 data fragments.  Missing:
others are not always refused; a product of indices may overflow first. -/
theorem C48_gf2n_fft_4_partial {b k m : Nat} (hF : BinSupported b 32) (hk : 0 < k) (hm : 0 < m) (hlt : k + m < 2 ^ 32) (mem : Nat → Nat)
    (junk : Nat → Nat → Nat) (junk3 : Nat → Nat → Nat → Nat) :
    ((∃ B, RsGf2nFft.mkBase b 4 k m mem junk junk3 = .ok B) ↔ k + m ≤ 65535 ∧ 2 * k ≤ 65535) ∧
    ((∃ B, RsGf2nFft.mkBase b 4 k m mem junk junk3 = .ok B) ∨ RsGf2nFft.mkBase b 4 k m mem junk junk3 = ub ∨
      RsGf2nFft.mkBase b 4 k m mem junk junk3 = .error (.throws .badAlloc)) := by
  by_cases h : k + m ≤ 65535 ∧ 2 * k ≤ 65535
  · obtain ⟨K, _, B, S, n, l2, g2, e, _⟩ := RsGf2nFft.mkBase_spec (b := b) (w := 4) (k := k) (m := m)
      ⟨by simp, hF, hk, hm, h.1, h.2⟩ mem junk junk3
    exact ⟨⟨fun _ => h, fun _ => ⟨_, e⟩⟩, .inl ⟨_, e⟩⟩
  haveI := fact_of (size_of hF.size)
  obtain ⟨O, e, _, _⟩ := exists_binExt hF junk junk3
  have hO : IsBinExt O b 32 := ⟨hF, junk, junk3, e⟩
  have D := binDft hO
  have CL : CodeLens O.gf (2 ^ 32) := binCodeLens hO
  have hall : (2 ^ 32 - 1).primeFactorsList.prod = 2 ^ 32 - 1 := Nat.prod_primeFactorsList (by norm_num)
  have hfail : ∀ n, n ∣ 2 ^ 32 - 1 → 65535 < n → CooleyTukey.mk' O.gf b n mem = ub ∨ CooleyTukey.mk' O.gf b n mem = .error (.throws .badAlloc) := by
    intro n hn h1
    by_cases h31 : n < 2 ^ 31
    · exact .inl (C20_cooley_tukey_overflow (.bin hO) hn h31 ⟨65537, by norm_num, long_divisor hn h1, by norm_num⟩ mem)
    · exact .inr (C20_too_long (.bin hO) hn (by omega) (by have := Nat.le_of_dvd (by norm_num) hn; omega) mem).1
  have hr : RsGf2nFft.mkBase b 4 k m mem junk junk3 = ub ∨ RsGf2nFft.mkBase b 4 k m mem junk junk3 = .error (.throws .badAlloc) := by
    unfold RsGf2nFft.mkBase
    simp only [cassert, show 4 ≤ 16 by decide, decide_true, if_true, ok_bind]
    rw [← bind_assoc, show 8 * 4 = 32 from rfl, e, ok_bind]
    by_cases hlen : k + m ≤ 65535
    · obtain ⟨A, C, hfac, hprod, hA⟩ := factors_bin (w := 4) (by simp)
      replace hprod : A.prod = 65535 := hprod
      have hAp : ∀ x ∈ A, x.Prime := fun x hx => Nat.prime_of_mem_primeFactorsList (n := 2 ^ (8 * 4) - 1) (by rw [hfac]; simp [hx])
      obtain ⟨n, en, hnd, hnge⟩ := CL hfac (m := m + k) (by omega) (by omega)
      have hn1 : n ≤ 65535 := Nat.le_of_dvd (by norm_num) (hprod ▸ hnd)
      obtain ⟨T1, r, eT1, er, _⟩ := ct_spec D mem (n := n) (by omega) (hnd.trans (by rw [hprod]; norm_num)) (by omega)
        (fun p hp hpn => RsGf2nFft.small_prime (w := 4) (n := n) hA hp (hpn.trans hnd) hAp)
      obtain ⟨l2, el2, hld, hlge⟩ := CL (List.append_nil _).symm (m := 2 * k) (by omega) (by rw [hall]; omega)
      rw [hall] at hld
      have hl32 : wrap 32 l2 = l2 := Nat.mod_eq_of_lt (by have := Nat.le_of_dvd (by norm_num) hld; omega)
      rw [en, ok_bind, er, ok_bind, eT1, ok_bind, el2, ok_bind, hl32]
      rcases hfail l2 hld (by omega) with h2 | h2 <;> rw [h2]
      · exact .inl rfl
      · exact .inr rfl
    · obtain ⟨n, en, hnd, hnge⟩ := CL (List.append_nil _).symm (m := m + k) (by omega) (by rw [hall]; omega)
      rw [hall] at hnd
      obtain ⟨r, er, _⟩ := D.root n hnd
      rw [en, ok_bind, er, ok_bind]
      rcases hfail n hnd (by omega) with h2 | h2 <;> rw [h2]
      · exact .inl rfl
      · exact .inr rfl
  refine ⟨⟨fun ⟨B, e⟩ => ?_, fun h' => absurd h' h⟩, .inr hr⟩
  rcases hr with hr | hr <;> rw [e] at hr <;> cases hr

/-- C48, `RsGf2nFft` with words of 8 or 16 bytes: the constructor accepts exactly at most 42007935 fragments, of which at most half as many data
fragments.  Missing: how it ends otherwise; it may be undefined behaviour, as a product of indices overflows. -/
theorem C48_gf2n_fft_long_partial {b w k m : Nat} (hw : w = 8 ∨ w = 16) (hF : BinSupported b (8 * w)) (hk : 0 < k) (hm : 0 < m) (hlt : k + m < 2 ^ 32)
    (mem : Nat → Nat) (junk : Nat → Nat → Nat) (junk3 : Nat → Nat → Nat → Nat) :
    (∃ B, RsGf2nFft.mkBase b w k m mem junk junk3 = .ok B) ↔ k + m ≤ 42007935 ∧ 2 * k ≤ 42007935 := by
  have hmax : fftMax w = 42007935 := by rcases hw with rfl | rfl <;> rfl
  constructor
  swap
  · intro h
    obtain ⟨K, _, B, S, n, l2, g2, e, _⟩ := RsGf2nFft.mkBase_spec (b := b) (w := w) (k := k) (m := m)
      ⟨by rcases hw with rfl | rfl <;> simp, hF, hk, hm, by rw [hmax]; exact h.1, by rw [hmax]; exact h.2⟩ mem junk junk3
    exact ⟨_, e⟩
  rintro ⟨B, eB⟩
  haveI := fact_of (size_of hF.size)
  obtain ⟨O, e, _, _⟩ := exists_binExt hF junk junk3
  have hO : IsBinExt O b (8 * w) := ⟨hF, junk, junk3, e⟩
  have BF := hO.isBinField.2
  have D := binDft hO
  have CL : CodeLens O.gf (2 ^ (8 * w)) := binCodeLens hO
  have he : 8 * w = 64 ∨ 8 * w = 128 := by omega
  have h64 : 2 ^ 64 ≤ 2 ^ (8 * w) := Nat.pow_le_pow_right (by omega) (by omega)
  have h128 : ∀ {n : Nat}, n ∣ 2 ^ (8 * w) - 1 → n ∣ 2 ^ 128 - 1 := by
    intro n hn
    rcases he with h | h <;> rw [h] at hn
    · exact hn.trans (by norm_num)
    · exact hn
  have hall : (2 ^ (8 * w) - 1).primeFactorsList.prod = 2 ^ (8 * w) - 1 := Nat.prod_primeFactorsList (by omega)
  have hw16 : w ≤ 16 := by omega
  have hshort : ∀ {n : Nat} {T : FT}, n ∣ 2 ^ (8 * w) - 1 → CooleyTukey.mk' O.gf b n mem = .ok T → n ≤ 42007935 := by
    intro n T hn eT
    by_contra hc
    obtain ⟨p, hp, hpn, h2, hbad⟩ := long_divisor_128 (h128 hn) (by omega)
    exact ct_not_built D mem hn hp hpn h2 hbad T eT
  unfold RsGf2nFft.mkBase at eB
  simp only [cassert, hw16, decide_true, if_true, ok_bind] at eB
  rw [← bind_assoc, e, ok_bind] at eB
  obtain ⟨n, en, hnd, hnge⟩ := CL (List.append_nil _).symm (m := m + k) (by omega) (by rw [hall]; norm_num at h64 hlt; omega)
  rw [hall] at hnd
  rw [en, ok_bind] at eB
  obtain ⟨r, er, eB⟩ := bind_ok eB
  obtain ⟨T1, eT1, eB⟩ := bind_ok eB
  have h1 := hshort hnd eT1
  refine ⟨by omega, ?_⟩
  by_contra h2
  obtain ⟨C, hC⟩ := factors_65537 he
  have el : O.gf.codeLenHC (2 * k) = .ok (if 2 * k ≤ 42009217 then 42009217 else 10796368769) := by
    show O.get_code_len_high_compo (2 * k) = _
    unfold BinExt.Obj.get_code_len_high_compo
    have : 2 * k ≤ 2 ^ (8 * w) - 1 := by norm_num at h64; omega
    rw [BF.good.cardM1_eq]
    simp only [cassert, this, decide_true, if_true, ok_bind]
    rw [BF.primes, Arith.factorList_eq BF.factors, hC]
    exact Arith.highCompo_long C (by have := BF.good.hb; omega) (by omega) (by omega)
  rw [el, ok_bind] at eB
  obtain ⟨T2, eT2, _⟩ := bind_ok eB
  by_cases h3 : 2 * k ≤ 42009217
  · rw [if_pos h3] at eT2
    have hd : 42009217 ∣ 2 ^ (8 * w) - 1 := by rcases he with h | h <;> rw [h] <;> norm_num
    have := hshort hd eT2
    omega
  · rw [if_neg h3] at eT2
    exact ct_not_built_negative (by norm_num [wrap]) T2 eT2

/-- a loop whose turn `j` fails, when the turns before it keep an invariant -/
theorem forN_fails {σ : Type} {n : Nat} {s : σ} {f : Nat → σ → Res σ} (I : Nat → σ → Prop) {j : Nat} {e : Err} (hj : j < n) (h0 : I 0 s)
    (hs : ∀ k s, k < j → I k s → ∃ s', f k s = .ok s' ∧ I (k + 1) s') (hf : ∀ s, I j s → f j s = .error e) : forN n s f = .error e := by
  induction n with
  | zero => omega
  | succ n ih =>
    show (forN n s f >>= fun s => f n s) = _
    by_cases hn : j < n
    · rw [ih hn]; rfl
    · have : j = n := by omega
      subst this
      obtain ⟨s', e', hI⟩ := forN_inv I h0 hs
      rw [e', ok_bind, hf s' hI]

theorem log_tables {O : BinExt.Obj} {b n : Nat} (h : IsBinExt O b n) (hn : n ≤ 16) : O.F.split = false ∧ O.F.gflog.size = 2 ^ n := by
  haveI := h.fact
  have hcard : O.F.my_card = 2 ^ n := by
    rw [h.isBinField.2.good.cardE, if_neg (fun hr => ?_)]
    have := (restricted_iff h).1 hr
    have := h.ok.spare hn
    omega
  obtain ⟨j, j3, e⟩ := h.built
  obtain ⟨F, e1, e2⟩ := bind_ok e
  unfold BinExt.init at e2
  obtain ⟨_, _, e2⟩ := bind_ok e2
  obtain ⟨_, _, e2⟩ := bind_ok e2
  cases e2
  unfold BinExt.mk' at e1
  obtain ⟨_, _, e1⟩ := bind_ok e1
  obtain ⟨_, _, e1⟩ := bind_ok e1
  obtain ⟨_, _, e1⟩ := bind_ok e1
  obtain ⟨_, _, e1⟩ := bind_ok e1
  simp only at e1
  rw [if_pos hn] at e1
  obtain ⟨⟨gl, gi⟩, et, e1⟩ := bind_ok e1
  cases e1
  refine ⟨rfl, ?_⟩
  show gl.size = _
  rw [← hcard]
  unfold BinExt.setup_tables at et
  obtain ⟨t, et2, e3⟩ := bind_ok et
  cases e3
  refine forN_keeps (fun t : Array Nat × Array Nat × Nat => t.1.size = _) et2 (by simp) (fun i s s' hs he => ?_)
  obtain ⟨g, eg, he⟩ := bind_ok he
  obtain ⟨g', eg', he⟩ := bind_ok he
  cases he
  show g.size = _
  rw [(wr_eq eg).2, size_set, hs]

/-- inverting a word that is no element reads outside the table of logarithms -/
theorem inv_ub {O : BinExt.Obj} {b n : Nat} (h : IsBinExt O b n) (hn : n ≤ 16) {x : Nat} (hx : 2 ^ n ≤ x) : O.gf.inv x = ub := by
  obtain ⟨hs, hl⟩ := log_tables h hn
  have hpos : 0 < n := by
    have := h.ok.size
    simp at this; omega
  have h2 : 1 < 2 ^ n := Nat.one_lt_two_pow (by omega)
  show O.F.inv x = ub
  unfold BinExt.inv BinExt.div BinExt.divLog
  rw [hs]
  simp only [Bool.false_eq_true, if_false]
  rw [if_neg (by omega), if_neg (by omega), rd_gt (by omega), ok_bind]
  have : rd O.F.gflog x = ub := by
    unfold rd
    rw [Array.getElem?_eq_none (by omega)]
  rw [this]
  rfl

/-- C48 fails for `RsGf2n` with the Cauchy matrix and words of one or two bytes: with more fragments than elements in the field, the
constructor reads outside an array. -/
theorem C48_cauchy_reads_out_of_bounds {b w k m : Nat} (hw : w = 1 ∨ w = 2) (hF : BinSupported b (8 * w)) (hk : 0 < k) (hm : 0 < m)
    (hlen : 2 ^ (8 * w) < k + m) (_hlt : k + m < 2 ^ 31) (mem : Nat → Nat) (junk : Nat → Nat → Nat) (junk3 : Nat → Nat → Nat → Nat) :
    RsGf2n.mk' b w k m .cauchy mem junk junk3 = ub := by
  haveI := fact_of (size_of hF.size)
  obtain ⟨O, e, _, _⟩ := exists_binExt hF junk junk3
  have hO : IsBinExt O b (8 * w) := ⟨hF, junk, junk3, e⟩
  have hw16 : w ≤ 16 := by omega
  have h0 : ∀ x, O.gf.add 0 x = x := fun x => Nat.zero_xor x
  unfold RsGf2n.mk' RsGf2n.mkObj
  simp only [cassert, hw16, decide_true, if_true, ok_bind]
  rw [← bind_assoc, e, ok_bind]
  have : (Mat.mk' m k mem).cauchy O.gf = ub := by
    unfold Mat.cauchy
    rw [forN_first (by exact hm) (e := .ub)]
    · rfl
    · refine forN_fails (fun _ M => M.n_rows = m ∧ M.n_cols = k ∧ M.mem.size = m * k) (j := 2 ^ (8 * w) - m) (by show _ < k; omega)
        ⟨rfl, rfl, by simp [Mat.mk']⟩ ?_ ?_
      · rintro j M hj ⟨h1, h2, h3⟩
        obtain ⟨i, ei, _⟩ := C14_inv hO (a := j + m) (by omega) (by omega)
        have ei' : O.gf.inv (j + m) = .ok i := ei
        have hlt : 0 * M.n_cols + j < M.mem.size := by
          rw [h3]
          have : 1 * k ≤ m * k := Nat.mul_le_mul_right _ hm
          omega
        refine ⟨{ M with mem := M.mem.setIfInBounds (0 * M.n_cols + j) i }, ?_, h1, h2, by simp [h3]⟩
        have hjk : j < k := by omega
        rw [h1, h0, ei', ok_bind]
        unfold Mat.set
        simp only [cassert, h1, h2, hm, hjk, decide_true, if_true, ok_bind]
        rw [h2] at hlt
        rw [wr_ok hlt, ok_bind]
        rfl
      · rintro M ⟨h1, h2, h3⟩
        rw [h1, h0, inv_ub hO (by omega) (by omega)]
        rfl
  simp only [this]
  rfl

/-- C48 fails for `RsGf2nFftAdd` with words of one or two bytes: it is built with as many parities as there are words, or more, although
no code of that length can recover the data, whatever it computes, from any `n_data` of its fragments. -/
theorem C48_additive_accepts_too_long {b w k m : Nat} (hw : w = 1 ∨ w = 2) (hF : BinSupported b (8 * w)) (hk : 2 ≤ k)
    (hm : 2 ^ (8 * w) ≤ m) (hint : k + m ≤ 2 ^ 30) (hb : k + m < 2 ^ (b - 1)) (mem : Nat → Nat) (junk : Nat → Nat → Nat)
    (junk3 : Nat → Nat → Nat → Nat) (mem' : Nat → Nat) :
    ∃ c, RsGf2nFftAdd.mkCode b w k m mem junk junk3 = .ok c ∧
      ∃ data, Gf2nData w k data 1 ∧ ¬ NsRecovers (RsGf2nFftAdd.fec c) w k m mem' data 1 := by
  haveI := fact_of (size_of hF.size)
  obtain ⟨O, e, _, _⟩ := exists_binExt hF junk junk3
  have hO : IsBinExt O b (8 * w) := ⟨hF, junk, junk3, e⟩
  have BF := hO.isBinField.2
  haveI := BF.good.H.char
  have hFull : BF.sim.Full := BF.full
  have hw16 : w ≤ 16 := by omega
  obtain ⟨hsp, hl⟩ := log_tables hO (by omega)
  have hinv : ∀ x, BF.sim.V x → ∃ y, O.gf.inv x = .ok y ∧ (x ≠ 0 → BF.sim.V y) := by
    intro x hx
    by_cases h0 : x = 0
    · refine ⟨2 ^ O.F.b - 1, ?_, fun h => absurd h0 h⟩
      show O.F.inv x = _
      unfold BinExt.inv BinExt.div BinExt.divLog
      rw [hsp]
      simp [h0]
    · obtain ⟨y, ey, vy, _⟩ := BF.sim.inv hx (hFull.u hx (fun h => h0 ((hFull.eq_zero hx).1 h)))
      exact ⟨y, ey, fun _ => vy⟩
  obtain ⟨e2, ec, hle, hmin⟩ := Arith.ceil2_spec (b := b) (n := k + m) (by omega) hb
  have heb : e2 < b := by
    have := (Nat.pow_le_pow_iff_right (by omega : 1 < 2)).1 (hmin (b - 1) hb.le)
    have := hF.room
    omega
  have he1 : 1 ≤ e2 := by
    by_contra hc
    have : e2 = 0 := by omega
    subst this
    norm_num at hle
    omega
  have hlog : Arith.log2 ((2 ^ e2 : Nat) : Int) = .ok e2 := by
    rw [Arith.log2_eq (by positivity), Nat.log_pow (by omega)]
  have hg : BF.sim.V O.root := BF.root_lt
  have hs : (powerBasis O.gf O.root e2).size = e2 := by simp [powerBasis]
  have hV : ∀ j, j < e2 → BF.sim.V (gt (powerBasis O.gf O.root e2) j) := fun j hj => (Additive.powerBasis_sem hFull hg hj).1
  obtain ⟨L, Ls, eL, hLb, _⟩ := Additive.mkB_total (S := BF.sim) hFull (fun _ _ => rfl) hinv (b := b) mem (e2 - 1) (powerBasis O.gf O.root e2)
    (by omega) (by omega) (fun j hj => hV j (by omega))
  rw [show e2 - 1 + 1 = e2 by omega] at eL
  obtain ⟨B, eB, _, _⟩ := Additive.compute_subspace_spec (S := BF.sim) (fun _ _ => rfl) (b := b) (dim := e2) (basis := powerBasis O.gf O.root e2)
    (sub := fresh mem (2 ^ e2)) mem hs heb (by simp) hV
  have emk : Additive.mk' O.gf b O.root e2 mem = .ok (L :: Ls) := by
    unfold Additive.mk'
    simp only [cassert, show e2 ≥ 1 from he1, decide_true, if_true, ok_bind]
    rw [Additive.defaultBetas_spec hFull hg he1 mem, ok_bind, eL]
  have ecB : Additive.compute_B O.gf b (L :: Ls) (fresh mem (2 ^ e2)) mem = .ok B := by
    unfold Additive.compute_B
    simp only [hLb]
    exact eB
  refine ⟨{ base := { sys := false, word_size := w, n_data := k, n_parities := m, code_len := k + m, n_outputs := k + m,
                      pkt_size := 8, n := 2 ^ e2, r := 0, F := O.gf, fft := Additive.ft O.gf b (L :: Ls) mem,
                      fft_2k := Additive.ft O.gf b (L :: Ls) mem, inv_r_powers := #[], r_powers := #[] },
            betas := B }, ?_, RsGf2nFftAdd.not_recovers (by omega) hk (by rw [← two_pow_8]; exact hm) mem'⟩
  unfold RsGf2nFftAdd.mkCode cassert
  simp only [hw16, decide_true, if_true, ok_bind]
  rw [← bind_assoc, e, ok_bind]
  rw [ec, ok_bind, hlog, ok_bind, emk, ok_bind, ecB, ok_bind]
  rfl

/-! ### concrete parameters -/

example : BinSupported 64 (8 * 8) ∧ 25000000 + 10000000 < 2 ^ 32 ∧ 25000000 + 10000000 ≤ 42007935 ∧ ¬ 2 * 25000000 ≤ 42007935 :=
  ⟨⟨by decide, by decide, by decide, by decide⟩, by decide, by decide, by decide⟩

example : BinSupported 32 32 ∧ 40000 + 30000 < 2 ^ 32 ∧ ¬ (40000 + 30000 ≤ 65535) :=
  ⟨⟨by decide, by decide, by decide, by decide⟩, by decide, by decide⟩

example : WordType 32 64 ∧ WordType 64 128 := ⟨.inl ⟨rfl, rfl⟩, .inr ⟨rfl, rfl⟩⟩

example : 2 ≤ 6 → 6 ≤ 8 → Nf4Build 128 (6 / 2) (some (16, fun _ => 0)) :=
  fun _ _ => ⟨by norm_num, by norm_num, by norm_num, fun _ _ h => by cases h; exact ⟨rfl, .inl rfl⟩⟩

example : BinSupported 32 (8 * 1) ∧ 2 ≤ 2 ∧ 2 ^ (8 * 1) ≤ 256 ∧ 2 + 256 ≤ 2 ^ 30 ∧ 2 + 256 < 2 ^ (32 - 1) ∧ 2 ^ (8 * 1) < 2 + 256 :=
  ⟨⟨by decide, by decide, by decide, by decide⟩, by decide, by decide, by decide, by decide, by decide⟩

end Quad.Props
