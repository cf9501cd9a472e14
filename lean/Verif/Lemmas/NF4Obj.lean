import Verif.Props.NF4
import Verif.Lemmas.CodeLen
import Verif.Lemmas.FecFnt

/-!
The field object of packed words: `init` succeeds, the lanes are simulations, transforms over it.
-/

namespace Quad
open Spec Finset

namespace Spec.IsNf4
open NF4
variable {N : NF4} {b n : Nat} {simd : Option (Nat × (Nat → Nat))}

/-- the word with `c` in each lane, as a product -/
theorem word_const (n c : Nat) : word 32 n (fun _ => c) = c * word 32 n (fun _ => 1) := by
  induction n with
  | zero => simp [word]
  | succ n ih => rw [word_succ, word_succ, ih]; ring

theorem word_one_odd {n : Nat} (hn : 0 < n) : word 32 n (fun _ => 1) % 2 = 1 := by
  obtain ⟨m, rfl⟩ : ∃ m, n = m + 1 := ⟨n - 1, by omega⟩
  rw [word_succ]
  omega

theorem h_eq (H : IsNf4 N b n simd) : N.h = 2 ^ 16 * word 32 n (fun _ => 1) := by
  unfold NF4.h
  rw [H.replicate_eq (by norm_num), word_const, show (65536 : Nat) = 2 ^ 16 by norm_num]

theorem h_pos (H : IsNf4 N b n simd) : 2 ^ 16 ≤ N.h := by
  rw [H.h_eq]
  have := word_one_odd H.build.pos
  exact Nat.le_mul_of_pos_right _ (by omega)

theorem h_lt (H : IsNf4 N b n simd) : N.h < 2 ^ b := by
  unfold NF4.h
  rw [H.replicate_eq (by norm_num)]
  exact lt_of_lt_of_le (word_lt (s := 32) (fun _ _ => by norm_num)) (Nat.pow_le_pow_right (by norm_num) H.build.fit)

/-- one lane of a packed word, as a simulation of `mul` alone -/
theorem mulSim (H : IsNf4 N b n simd) {a c : Nat} (ha : Packed n a) (hc : Packed n c) :
    Packed n (N.mul a c) ∧ ∀ l, l < n → (lane32 (N.mul a c) l : ZMod 65537) = lane32 a l * lane32 c l := by
  have hw := word_packed (n := n) (f := fun l => lane32 a l * lane32 c l % 65537) (fun l _ => Nat.mod_lt _ (by norm_num))
  rw [H.mul_eq ha hc]
  exact ⟨hw.1, fun l hl => by rw [hw.2 l hl, ZMod.natCast_mod, Nat.cast_mul]⟩

theorem packed_small (H : IsNf4 N b n simd) {v : Nat} (hv : v < 65537) : Packed n v ∧ lane32 v 0 = v ∧ ∀ l, 0 < l → lane32 v l = 0 := by
  have h0 : lane32 v 0 = v := by unfold lane32; rw [Nat.mul_zero, pow_zero, Nat.div_one]; exact Nat.mod_eq_of_lt (by omega)
  have hz : ∀ l, 0 < l → lane32 v l = 0 := by
    intro l hl
    unfold lane32
    rw [Nat.div_eq_of_lt, Nat.zero_mod]
    calc v < 2 ^ 32 := by omega
      _ ≤ 2 ^ (32 * l) := Nat.pow_le_pow_right (by norm_num) (by omega)
  refine ⟨⟨?_, fun l _ => ?_⟩, h0, hz⟩
  · have := H.build.pos
    calc v < 2 ^ 32 := by omega
      _ ≤ 2 ^ (32 * n) := Nat.pow_le_pow_right (by norm_num) (by omega)
  · rcases Nat.eq_zero_or_pos l with rfl | hl
    · rw [h0]; exact hv
    · rw [hz l hl]; norm_num

/-- powers by `exp_quick` over the virtual `mul`, in lane 0: the exponentiation starts from the word 1, which has 1 in
lane 0 only -/
theorem expQuick0 (H : IsNf4 N b n simd) {a : Nat} (ha : Packed n a) (e : Nat) :
    Packed n (expQuick N.mul a e) ∧ (lane32 (expQuick N.mul a e) 0 : ZMod 65537) = (lane32 a 0 : ZMod 65537) ^ e := by
  refine expQuick_sim (M := ZMod 65537) (mul := N.mul) (V := Packed n) (φ := fun a => (lane32 a 0 : ZMod 65537)) ?_ ?_ ha e
  · obtain ⟨h1, h2, _⟩ := H.packed_small (v := 1) (by norm_num)
    exact ⟨h1, by rw [h2]; simp⟩
  · intro a c ha hc
    exact ⟨(H.mulSim ha hc).1, (H.mulSim ha hc).2 0 H.build.pos⟩

/-- a word for which no proper divisor of the order gives 1 -/
theorem witness (H : IsNf4 N b n simd) {ds : List Nat} (hds : ∀ d ∈ ds, ∃ p, p.Prime ∧ p ∣ N.h ∧ p < N.h ∧ d = N.h / p) :
    ∃ m, 2 ≤ m ∧ m ≤ N.h ∧ RingModN.noDivisorGivesOne (expQuick N.mul) m ds = true := by
  have hh := H.h_pos
  by_cases hn : n = 1
  · subst hn
    have hh' : N.h = 2 ^ 16 := by rw [H.h_eq]; norm_num [word]
    refine ⟨3, by norm_num, by omega, ?_⟩
    unfold RingModN.noDivisorGivesOne
    rw [List.all_eq_true]
    intro d hd
    obtain ⟨p, hp, hpd, _, rfl⟩ := hds d hd
    rw [hh'] at hpd ⊢
    have hp2 : p = 2 := (Nat.prime_dvd_prime_iff_eq hp Nat.prime_two).mp (hp.dvd_of_dvd_pow hpd)
    subst hp2
    obtain ⟨h1, h2, _⟩ := H.packed_small (v := 3) (by norm_num)
    have h3 := (H.expQuick0 h1 (2 ^ 16 / 2)).2
    rw [h2] at h3
    simp only [bne_iff_ne, ne_eq]
    intro he
    rw [he] at h3
    have h4 := (H.packed_small (v := 1) (by norm_num)).2.1
    rw [h4] at h3
    have h5 : ((3 : Nat) : ZMod 65537) ^ (2 ^ 16 / 2) = -1 := by
      have e1 : (RingModN.mk 32 64 true 65537).exp 3 32768 = 65536 := by decide +kernel
      have hF : (RingModN.mk 32 64 true 65537).Fits := ⟨by norm_num, by norm_num, by norm_num⟩
      rw [RingModN.exp_eq hF (by norm_num)] at e1
      have e2 := congrArg (Nat.cast (R := ZMod 65537)) e1
      rw [ZMod.natCast_mod, Nat.cast_pow] at e2
      rw [show (2 : Nat) ^ 16 / 2 = 32768 by norm_num, e2]
      have : ((65536 : Nat) : ZMod 65537) + 1 = 0 := by
        have := ZMod.natCast_self 65537
        push_cast at this ⊢
        rw [← this]; norm_num
      exact eq_neg_of_add_eq_zero_left this
    rw [h5] at h3
    have : ((2 : Nat) : ZMod 65537) = 0 := by
      push_cast at h3 ⊢
      linear_combination h3
    rw [ZMod.natCast_eq_zero_iff] at this
    omega
  · -- lane 0 holds 0 and lane 1 holds 1
    have hn2 : 2 ≤ n := by have := H.build.pos; omega
    have hl0 : lane32 (2 ^ 32) 0 = 0 := by norm_num [lane32]
    have hP : Packed n (2 ^ 32) := by
      refine ⟨Nat.pow_lt_pow_right (by norm_num) (by omega), fun l hl => ?_⟩
      unfold lane32
      rcases Nat.lt_or_ge l 2 with h | h
      · rcases (show l = 0 ∨ l = 1 by omega) with rfl | rfl <;> norm_num
      · rw [Nat.div_eq_of_lt (Nat.pow_lt_pow_right (by norm_num) (by omega))]; norm_num
    refine ⟨2 ^ 32, by norm_num, ?_, ?_⟩
    · obtain ⟨m, rfl⟩ : ∃ m, n = m + 2 := ⟨n - 2, by omega⟩
      rw [H.h_eq, word_succ, word_succ]
      have : 0 ≤ word 32 m (fun _ => 1) := Nat.zero_le _
      omega
    · unfold RingModN.noDivisorGivesOne
      rw [List.all_eq_true]
      intro d hd
      obtain ⟨p, hp, hpd, hlt, rfl⟩ := hds d hd
      have hd0 : N.h / p ≠ 0 := (Nat.div_pos hlt.le hp.pos).ne'
      have h3 := (H.expQuick0 hP (N.h / p)).2
      rw [hl0, Nat.cast_zero, zero_pow hd0] at h3
      simp only [bne_iff_ne, ne_eq]
      intro he
      rw [he, (H.packed_small (v := 1) (by norm_num)).2.1] at h3
      simp at h3

theorem init_spec (H : IsNf4 N b n simd) : ∃ O, N.init = .ok O ∧ O.N = N ∧
    O.all_primes_factors = List.replicate 16 2 ++ (word 32 n (fun _ => 1)).primeFactorsList := by
  have hh := H.h_pos
  obtain ⟨fs, e, hf⟩ := Arith.factor_prime_spec (b := b) (nb := N.h) (by have := H.build.width; omega)
    (by have := H.build.width; omega) H.h_lt (by omega)
  obtain ⟨m, hm1, hm2, hm3⟩ := H.witness (ds := Arith.get_proper_divisors_from N.h (fs.map Prod.fst)) (by
    intro d hd
    unfold Arith.get_proper_divisors_from at hd
    rw [List.mem_map] at hd
    obtain ⟨p, hp, rfl⟩ := hd
    rw [List.mem_filter, List.mem_map] at hp
    obtain ⟨⟨pe, hpe, rfl⟩, hlt⟩ := hp
    exact ⟨pe.1, (hf.1 pe hpe).1, hf.dvd hpe, by simpa using hlt, rfl⟩)
  obtain ⟨r1, r2, r3⟩ := RingModN.rootLoop_spec (expQuick N.mul) (Arith.get_proper_divisors_from N.h (fs.map Prod.fst)) (N.h - 1) 2
    ⟨m, hm1, by omega, hm3⟩
  refine ⟨{ N := N, factors := fs, all_primes_factors := Arith.get_prime_factors_from fs,
            proper_divisors := Arith.get_proper_divisors_from N.h (fs.map Prod.fst),
            root := RingModN.rootLoop (expQuick N.mul) (Arith.get_proper_divisors_from N.h (fs.map Prod.fst)) (N.h - 1) 2 }, ?_, rfl, ?_⟩
  · unfold NF4.init NF4.find_primitive_root
    rw [H.nb, e, ok_bind]
    simp only
    rw [if_neg (by omega), if_neg (by omega), ok_bind]
    rfl
  · show Arith.get_prime_factors_from fs = _
    rw [Arith.factorList_eq hf, H.h_eq, factors_pow 2 16 _ Nat.prime_two (by have := word_one_odd H.build.pos; omega)]
    intro q hq _
    exact hq.two_le

variable {O : NF4.Obj}

theorem init_factors (H : IsNf4 N b n simd) (hO : N.init = .ok O) : O.N = N ∧
    O.all_primes_factors = List.replicate 16 2 ++ (word 32 n (fun _ => 1)).primeFactorsList := by
  obtain ⟨O', e, h⟩ := H.init_spec
  rw [hO] at e; cases e; exact h

/-- the code length of the packed field is a power of two -/
theorem codeLen (H : IsNf4 N b n simd) (hO : N.init = .ok O) {m : Nat} (hm : 2 ≤ m) (hm2 : m ≤ 2 ^ 16) :
    ∃ L, O.gf.codeLenHC m = .ok (2 ^ L) ∧ L ≤ 16 ∧ m ≤ 2 ^ L := by
  obtain ⟨hN, hf⟩ := H.init_factors hO
  have hodd := word_one_odd H.build.pos
  have hprod : O.all_primes_factors.prod = N.h := by
    rw [hf, List.prod_append, List.prod_replicate, Nat.prod_primeFactorsList (by omega), ← H.h_eq]
  obtain ⟨r, e, hd, hle⟩ := Arith.high_compo_prefix (b := b) (n := m) hf (by
      intro f hf'
      have : f ∣ O.all_primes_factors.prod := List.dvd_prod hf'
      rw [hprod] at this
      exact Nat.pos_of_dvd_of_pos this (by have := H.h_pos; omega)) (by rw [hprod]; exact H.h_lt) hm
    (by rw [List.prod_replicate]; exact hm2)
  rw [List.prod_replicate] at hd
  obtain ⟨L, hL, rfl⟩ := (Nat.dvd_prime_pow Nat.prime_two).mp hd
  refine ⟨L, ?_, hL, hle⟩
  show O.get_code_len_high_compo m = _
  unfold NF4.Obj.get_code_len_high_compo
  rw [hN, H.nb]
  have := H.h_pos
  have hc : m ≤ N.h := by omega
  simp only [cassert, hc, decide_true, if_true, ok_bind, e]

/-- lane `l` of the packed words -/
def sim (H : IsNf4 N b n simd) (hO : N.init = .ok O) (l : Fin n) : O.gf.Sim (ZMod 65537) where
  V := Packed n
  φ := fun a => (lane32 a l : ZMod 65537)
  U := fun _ => True
  zero := ⟨packed0 n, by simp [lane32]⟩
  one := by
    have hN := (H.init_factors hO).1
    have : O.gf.unit = word 32 n (fun _ => 1) := by
      show O.N.replicate 1 = _
      rw [hN]; exact H.replicate_eq (by norm_num)
    rw [this]
    have hw := word_packed (n := n) (f := fun _ => 1) (fun _ _ => by norm_num)
    exact ⟨hw.1, by rw [hw.2 l l.2]; simp⟩
  add := by
    intro a c ha hc
    have hN := (H.init_factors hO).1
    subst hN
    have := Props.C15_add H ha hc
    exact ⟨this.1, this.2 l l.2⟩
  sub := by
    intro a c ha hc
    have hN := (H.init_factors hO).1
    subst hN
    have := Props.C15_sub H ha hc
    exact ⟨this.1, this.2 l l.2⟩
  mul := by
    intro a c ha hc
    have hN := (H.init_factors hO).1
    subst hN
    have := Props.C15_mul H ha hc
    exact ⟨this.1, this.2 l l.2⟩
  neg := by
    intro a ha
    have hN := (H.init_factors hO).1
    subst hN
    have := Props.C15_neg H ha
    exact ⟨this.1, this.2 l l.2⟩
  inv := by
    intro a ha _
    have hN := (H.init_factors hO).1
    subst hN
    obtain ⟨r, e, h1, h2⟩ := Props.C15_inv H ha
    exact ⟨r, e, h1, h2 l l.2⟩
  div := by
    intro a c ha hc _
    have hN := (H.init_factors hO).1
    subst hN
    obtain ⟨r, e, h1, h2⟩ := Props.C15_div H ha hc
    exact ⟨r, e, h1, h2 l l.2⟩
  exp' := fun h => nomatch h
  omega := by
    intro a e ha he
    have hN := (H.init_factors hO).1
    subst hN
    have := Props.C15_exp H ha (O.N.replicate e)
    refine ⟨this.1, (this.2 l l.2).trans ?_⟩
    rw [H.replicate_lane (he rfl) l.2]

theorem sim_V (H : IsNf4 N b n simd) (hO : N.init = .ok O) (l : Fin n) (a : Nat) : (H.sim hO l).V a ↔ Packed n a := Iff.rfl
theorem sim_φ (H : IsNf4 N b n simd) (hO : N.init = .ok O) (l : Fin n) (a : Nat) : (H.sim hO l).φ a = (lane32 a l : ZMod 65537) := rfl

theorem rep (H : IsNf4 N b n simd) (hO : N.init = .ok O) (l : Fin n) {a : Nat} (ha : a < 65537) :
    (H.sim hO l).V (O.gf.replicate a) ∧ (H.sim hO l).φ (O.gf.replicate a) = a := by
  have hN := (H.init_factors hO).1
  subst hN
  have := Props.C15_replicate H ha
  exact ⟨this.1, congrArg Nat.cast (this.2 l l.2)⟩

theorem char (H : IsNf4 N b n simd) (hO : N.init = .ok O) (l : Fin n) : (H.sim hO l).Char := by
  refine ⟨fun h => (nomatch h), fun d => ?_⟩
  have := H.rep hO l (a := d % 65537) (Nat.mod_lt _ (by norm_num))
  exact ⟨this.1, this.2.trans (ZMod.natCast_mod d 65537)⟩

theorem oneWord (H : IsNf4 N b n simd) (hO : N.init = .ok O) (l : Fin n) :
    (H.sim hO l).V O.gf.oneWord ∧ (H.sim hO l).φ O.gf.oneWord = 1 := by
  have := H.rep hO l (a := 1) (by norm_num)
  exact ⟨this.1, this.2.trans (by simp)⟩

/-- `get_nth_root` -/
theorem nthRoot (H : IsNf4 N b n simd) (hO : N.init = .ok O) {L : Nat} (hL : L ≤ 16) :
    ∃ w g : Nat, O.gf.nthRoot (2 ^ L) = .ok w ∧ IsPrimitiveRoot (g : ZMod 65537) (2 ^ L) ∧
      ∀ l, (H.sim hO l).V w ∧ (H.sim hO l).φ w = (g : ZMod 65537) := by
  have hN := (H.init_factors hO).1
  have hw : wrap 32 (2 ^ L) = 2 ^ L := Nat.mod_eq_of_lt (Nat.pow_lt_pow_right (by norm_num) (by omega))
  obtain ⟨w, e, h1, h2⟩ := H.sub_field.get_nth_root_spec (2 ^ L)
  rw [Nat.gcd_eq_left (show 2 ^ L ∣ 65537 - 1 from pow_dvd_pow 2 hL)] at h2
  refine ⟨O.gf.replicate w, w, ?_, h2, fun l => H.rep hO l h1⟩
  show O.N.get_nth_root (2 ^ L) = .ok (O.N.replicate w)
  unfold NF4.get_nth_root
  rw [hN, hw, e, ok_bind]
  rfl

/-- `get_inv_n_mod_p` -/
theorem invN (H : IsNf4 N b n simd) (hO : N.init = .ok O) {m : Nat} (hm : m < 65537) :
    ∃ i, O.gf.invN m = .ok i ∧ ∀ l, (H.sim hO l).V i ∧ (H.sim hO l).φ i = (m : ZMod 65537)⁻¹ := by
  have hN := (H.init_factors hO).1
  obtain ⟨p1, p2, p3⟩ := H.packed_small hm
  have hv := ZMod.val_lt ((m : ZMod 65537)⁻¹)
  have hinv : N.inv m = .ok ((m : ZMod 65537)⁻¹).val := by
    rw [H.inv_eq p1]
    congr 1
    have hw := word_packed (n := n) (f := fun l => ((lane32 m l : ZMod 65537)⁻¹).val) (fun l _ => ZMod.val_lt _)
    obtain ⟨q1, q2, q3⟩ := H.packed_small hv
    refine packed_ext hw.1 q1 (fun l hl => ?_)
    rw [hw.2 l hl]
    rcases Nat.eq_zero_or_pos l with rfl | h
    · rw [p2, q2]
    · rw [p3 l h, q3 l h]; simp
  refine ⟨O.gf.replicate ((m : ZMod 65537)⁻¹).val, ?_, fun l => ?_⟩
  · show O.N.get_inv_n_mod_p m = .ok (O.N.replicate _)
    unfold NF4.get_inv_n_mod_p
    rw [hN, hinv, ok_bind, Nat.mod_eq_of_lt hv]
    rfl
  · have := H.rep hO l hv
    exact ⟨this.1, this.2.trans (by rw [ZMod.natCast_val, ZMod.cast_id])⟩

/-- the radix-2 transform over packed words: one DFT in each lane, with the same root -/
theorem ftSpec (H : IsNf4 N b n simd) (hO : N.init = .ok O) {L dl pkt w g : Nat} (hL : L ≤ 16) (hdl0 : 0 < dl) (hdl : dl ≤ 2 ^ L)
    (ew : O.gf.nthRoot (2 ^ L) = .ok w) (hg : IsPrimitiveRoot (g : ZMod 65537) (2 ^ L))
    (hw : ∀ l, (H.sim hO l).V w ∧ (H.sim hO l).φ w = (g : ZMod 65537)) :
    ∃ R, Radix2.mk' O.gf (2 ^ L) dl = .ok R ∧ ∀ l, (R.ft pkt).Spec (H.sim hO l) (2 ^ L) (g : ZMod 65537)
      (fun m => ∃ d, d ≤ L ∧ (if m > dl then m else dl) = 2 ^ d) := by
  have hlt : 2 ^ L < 65537 := lt_of_le_of_lt (Nat.pow_le_pow_right (by norm_num) hL) (by norm_num)
  obtain ⟨iv, ei, hi⟩ := H.invN hO (m := 2 ^ L) hlt
  have key : ∀ l, _ := fun l => Radix2.mk'_spec (H.sim hO l) (L := L) (dl := dl) (w := w) (inv_n := iv)
    (by show (65537 - 1) % 2 ^ L = 0; exact Nat.mod_eq_zero_of_dvd (pow_dvd_pow 2 hL)) hdl ew (hw l).1 trivial
    (by rw [(hw l).2]; exact hg) ei (fun _ => by omega)
  obtain ⟨R, e, _⟩ := key ⟨0, H.build.pos⟩
  refine ⟨R, e, fun l => ?_⟩
  obtain ⟨R', e', hF, ⟨S, hV, hφ, _, hG⟩, hd, h3, h4⟩ := key l
  rw [e] at e'; cases e'
  rw [if_pos hdl0] at hd
  have hroot := hG.root
  have hgw : S.φ R.w = (g : ZMod 65537) := by rw [h4, hφ]; exact (hw l).2
  have hiv : S.φ R.inv_n = ((2 ^ L : Nat) : ZMod 65537)⁻¹ := by rw [h3, hφ]; exact (hi l).2
  rw [hgw] at hroot
  refine ⟨hG.n, by positivity, ?_, hroot, ?_, ?_, ?_⟩
  · exact RingModN.cast_ne_zero (by positivity) hlt
  · rintro out input h1 ⟨d, hdL, hK⟩ h3
    obtain ⟨r, e, s, h⟩ := Radix2.fft_word hG hdL h1 (by rw [hd]; exact hK) (fun j hj => (hV _).mpr (h3 j hj))
    refine ⟨r, e, s, fun i hi => ⟨(hV _).mp (h i hi).1, ?_⟩⟩
    have := (h i hi).2
    rw [hgw] at this
    simp only [hφ] at this; exact this
  · intro out input h1 h2 h3
    obtain ⟨r, e, s, h⟩ := Radix2.fft_inv_word hG h1 h2 (fun j hj => (hV _).mpr (h3 j (by omega)))
    refine ⟨r, e, s, fun i hi => ⟨(hV _).mp (h i hi).1, ?_⟩⟩
    have := (h i hi).2
    rw [hgw] at this
    simp only [hφ] at this; exact this
  · intro out input h1 h2 h3
    obtain ⟨r, e, s, h⟩ := Radix2.ifft_word hG (by rw [hV]; rw [‹R.inv_n = iv›]; exact (hi l).1) h1 h2 (fun j hj => (hV _).mpr (h3 j (by omega)))
    refine ⟨r, e, s, fun i hi => ⟨(hV _).mp (h i hi).1, ?_⟩⟩
    have := (h i hi).2
    rw [hgw, hiv] at this
    simp only [hφ] at this; exact this

end Spec.IsNf4
end Quad
