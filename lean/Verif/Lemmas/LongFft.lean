import Verif.Lemmas.FftOverflow
import Verif.Lemmas.FecFftBuild
import Verif.Lemmas.Buffers

/-!
Cooley-Tukey with a prime factor that is too large for the naive transform is never built, whatever the length.
-/

namespace Quad
open Spec

/-- every turn of a loop that ends was a success -/
theorem forN_turn {σ : Type} {n : Nat} {s s' : σ} {f : Nat → σ → Res σ} (h : forN n s f = .ok s') {i : Nat} (hi : i < n) : ∃ t t', f i t = .ok t' := by
  induction n generalizing s' with
  | zero => omega
  | succ n ih =>
    obtain ⟨t, et, h⟩ := bind_ok (show (forN n s f >>= fun s => f n s) = _ from h)
    by_cases hn : i < n
    · exact ih et hn
    · obtain rfl : i = n := by omega
      exact ⟨t, s', h⟩

variable {F : GF} [F.Plain] {b q : Nat} {K : Type} [Field K] {S : F.Sim K}

/-- a naive transform that was built has a length that fits, as an `int`, and so do the products of its indices -/
theorem Naive.built {n w pkt : Nat} {mem : Nat → Nat} {T : FT} (h : Naive.mk' F n w pkt mem = .ok T) :
    n % 2 ^ 32 < 2 ^ 31 ∧ (n % 2 ^ 32 - 1) * (n % 2 ^ 32 - 1) < 2 ^ 31 := by
  unfold Naive.mk' at h
  obtain ⟨l, el, h⟩ := bind_ok h
  obtain ⟨_, _, h⟩ := bind_ok h
  obtain ⟨_, _, h⟩ := bind_ok h
  obtain ⟨W, eW, h⟩ := bind_ok h
  unfold intLen at el
  split at el
  · rename_i h31
    cases el
    refine ⟨h31, ?_⟩
    by_cases h0 : n % 2 ^ 32 = 0
    · rw [h0]; norm_num
    · unfold Naive.compute_W at eW
      obtain ⟨t, t', e1⟩ := forN_turn eW (i := n % 2 ^ 32 - 1) (by omega)
      obtain ⟨u, u', e2⟩ := forN_turn e1 (i := n % 2 ^ 32 - 1) (by omega)
      by_contra hc
      rw [if_neg hc] at e2
      cases e2
  · cases el

/-- the layers of a transform that was built -/
theorem CooleyTukey.built {mem : Nat → Nat} {fs : List Nat} : ∀ {first : Bool} {n w : Nat} {T : FT}, CooleyTukey.build F mem first fs n w = .ok T →
    fs.prod = n → (∀ p ∈ fs, p.Prime) → ∀ p ∈ fs, p ≠ 2 → ∃ w1 T', Naive.mk' F p w1 0 mem = .ok T' := by
  induction fs with
  | nil => intro first n w T _ _ _ p hp; cases hp
  | cons n1 fs ih =>
    intro first n w T h hprod hpr p hp h2
    have h1 := (hpr n1 (by simp)).two_le
    have hn2 : n / n1 = fs.prod := by
      rw [← hprod, List.prod_cons, Nat.mul_div_cancel_left _ (by omega)]
    unfold CooleyTukey.build at h
    obtain ⟨l, _, h⟩ := bind_ok h
    obtain ⟨_, _, h⟩ := bind_ok h
    obtain ⟨_, _, h⟩ := bind_ok h
    rw [if_neg (by omega)] at h
    obtain ⟨o, eo, h⟩ := bind_ok h
    obtain ⟨t, et, h⟩ := bind_ok h
    rw [List.mem_cons] at hp
    rcases hp with rfl | hp
    · unfold CooleyTukey.outer at eo
      rw [if_neg h2] at eo
      exact ⟨_, _, eo⟩
    · have hpos : ∀ x ∈ fs, 0 < x := fun x hx => (hpr x (by simp [hx])).pos
      have hgt : n / n1 > 1 := by
        rw [hn2]
        have := Nat.le_of_dvd (List.prod_pos hpos) (List.dvd_prod hp)
        have := (hpr p (by simp [hp])).two_le
        omega
      rw [if_pos hgt] at et
      obtain ⟨i, ei, et⟩ := bind_ok et
      exact ih ei hn2.symm (fun x hx => hpr x (by simp [hx])) p hp h2

/-- Cooley-Tukey of a length with a prime factor too large for the naive transform is not built -/
theorem ct_not_built (D : DftField F b q S) (mem : Nat → Nat) {n p : Nat} (hn : n ∣ q - 1) (hp : p.Prime) (hpn : p ∣ n) (h2 : p ≠ 2)
    (hbad : 2 ^ 31 ≤ p % 2 ^ 32 ∨ 2 ^ 31 ≤ (p % 2 ^ 32 - 1) * (p % 2 ^ 32 - 1)) (T : FT) : CooleyTukey.mk' F b n mem ≠ .ok T := by
  intro h
  have hn0 := D.dvd_pos hn
  have hnb : n < 2 ^ b := by
    have := Nat.le_of_dvd (by have := D.two; omega) hn
    have := D.room
    have := D.two
    omega
  obtain ⟨fs, ef, f1, _, f3⟩ := Arith.get_prime_factors_spec D.even D.pos hnb hn0
  unfold CooleyTukey.mk' at h
  rw [ef, ok_bind] at h
  obtain ⟨w, _, h⟩ := bind_ok h
  have hm : p ∈ fs := by
    rw [← f3] at hpn
    obtain ⟨a, ha, hpa⟩ := (Nat.prime_iff.1 hp).dvd_prod_iff.mp hpn
    rwa [(Nat.prime_dvd_prime_iff_eq hp (f1 a ha)).1 hpa]
  obtain ⟨w1, T', e⟩ := CooleyTukey.built h f3 f1 p hm h2
  obtain ⟨h3, h4⟩ := Naive.built e
  omega

/-! ### the orders of the fields of 64 and 128 bits -/

theorem factors_last : (67280421310721 - 1).primeFactorsList = List.replicate 8 2 ++ [5, 47, 373, 2998279] := by
  have := factors_pow 2 8 262814145745 Nat.prime_two (by norm_num) (fun q hq hd => hq.two_le)
  have h2 : (262814145745).primeFactorsList = [5, 47, 373, 2998279] ++ [] := by
    have := factors_step (N := 262814145745) (p := 5) (by norm_num) (by norm_num) (M := 52562829149) (by norm_num) <|
      factors_step (p := 47) (by norm_num) (by norm_num) (M := 1118358067) (by norm_num) <|
      factors_step (p := 373) (by norm_num) (by norm_num) (M := 2998279) (by norm_num) <|
      factors_step (p := 2998279) (by norm_num) (by norm_num) (M := 1) (by norm_num) (factors_nil _)
    simpa using this
  rw [h2] at this
  rw [show 67280421310721 - 1 = 2 ^ 8 * 262814145745 by norm_num, this]
  simp

theorem prime_last : Nat.Prime 67280421310721 := by
  refine lucas_primality 67280421310721 3 ?_ ?_
  · norm_num only
    reduce_mod_char
  · intro q hq hd
    have hm : q ∈ (67280421310721 - 1).primeFactorsList := (Nat.mem_primeFactorsList (by norm_num)).mpr ⟨hq, hd⟩
    rw [factors_last] at hm
    have hq' : q = 2 ∨ q = 5 ∨ q = 47 ∨ q = 373 ∨ q = 2998279 := by
      simp only [List.mem_append, List.mem_replicate, List.mem_cons, List.not_mem_nil, or_false] at hm
      omega
    rcases hq' with rfl | rfl | rfl | rfl | rfl <;> norm_num only <;> reduce_mod_char <;> decide +kernel

/-- a divisor of `2^64 - 1` or `2^128 - 1` above 42007935 has a prime factor that is too large -/
theorem long_divisor_128 {n : Nat} (hn : n ∣ 2 ^ 128 - 1) (h : 42007935 < n) :
    ∃ p, p.Prime ∧ p ∣ n ∧ p ≠ 2 ∧ (2 ^ 31 ≤ p % 2 ^ 32 ∨ 2 ^ 31 ≤ (p % 2 ^ 32 - 1) * (p % 2 ^ 32 - 1)) := by
  by_contra hc
  have no : ∀ p, p.Prime → p ≠ 2 → (2 ^ 31 ≤ p % 2 ^ 32 ∨ 2 ^ 31 ≤ (p % 2 ^ 32 - 1) * (p % 2 ^ 32 - 1)) → Nat.Coprime n p := fun p hp h2 hb =>
    ((Nat.Prime.coprime_iff_not_dvd hp).2 (fun hd => hc ⟨p, hp, hd, h2, hb⟩)).symm
  have h1 : n ∣ 65537 * (274177 * (6700417 * (67280421310721 * 42007935))) := by
    rw [show 65537 * (274177 * (6700417 * (67280421310721 * 42007935))) = 2 ^ 128 - 1 by norm_num]; exact hn
  have h2 := (no 65537 (by norm_num) (by norm_num) (by norm_num)).dvd_of_dvd_mul_left h1
  have h3 := (no 274177 (by norm_num) (by norm_num) (by norm_num)).dvd_of_dvd_mul_left h2
  have h4 := (no 6700417 (by norm_num) (by norm_num) (by norm_num)).dvd_of_dvd_mul_left h3
  have h5 := (no 67280421310721 prime_last (by norm_num) (by norm_num)).dvd_of_dvd_mul_left h4
  have := Nat.le_of_dvd (by norm_num) h5
  omega

theorem Arith.highCompoLoop_skip {b n f x y : Nat} {pre post : List Nat} (hy : x * f = y) (hw : wrap b y = y) (h : y < n) :
    Arith.highCompoLoop b n pre (f :: post) x = Arith.highCompoLoop b n (pre ++ [f]) post y := by
  rw [Arith.highCompoLoop]
  simp only [hy, hw]
  rw [if_neg (by omega)]

theorem Arith.highCompoLoop_take {b n f x y r : Nat} {pre post : List Nat} (hy : x * f = y) (hw : wrap b y = y) (h : n ≤ y)
    (hb : Arith.highCompoBack n (pre ++ [f]) y = .ok (.inl r)) (hr : wrap b r = r) : Arith.highCompoLoop b n pre (f :: post) x = .ok r := by
  rw [Arith.highCompoLoop]
  simp only [hy, hw]
  rw [if_pos h, hb]
  simp only [hr]

theorem Arith.highCompoBack_skip {n f x y : Nat} {fs : List Nat} (hf : f ≠ 0) (hy : x / f = y) (h : n ≤ y) :
    Arith.highCompoBack n (f :: fs) x = Arith.highCompoBack n fs y := by
  rw [Arith.highCompoBack, if_neg hf]
  simp only [hy]
  rw [if_neg (by omega)]

theorem Arith.highCompoBack_take {n f x y r : Nat} {fs : List Nat} (hf : f ≠ 0) (hy : x / f = y) (h : y < n) (hr : y * f = r) :
    Arith.highCompoBack n (f :: fs) x = .ok (.inl r) := by
  rw [Arith.highCompoBack, if_neg hf]
  simp only [hy]
  rw [if_pos h, hr]

/-- the code lengths just above the product of the five smallest factors -/
theorem Arith.highCompo_long {b s : Nat} (C : List Nat) (hb : 64 ≤ b) (h1 : 42007935 < s) (h2 : s ≤ 84015870) :
    Arith.get_code_len_high_compo_factors b (3 :: 5 :: 17 :: 257 :: 641 :: 65537 :: C) s = .ok (if s ≤ 42009217 then 42009217 else 10796368769) := by
  have wr : ∀ x, x < 2 ^ 64 → wrap b x = x := fun x hx => Nat.mod_eq_of_lt (hx.trans_le (Nat.pow_le_pow_right (by omega) hb))
  unfold Arith.get_code_len_high_compo_factors
  rw [highCompoLoop_skip (y := 3) (by norm_num) (wr _ (by norm_num)) (by omega), highCompoLoop_skip (y := 15) (by norm_num) (wr _ (by norm_num)) (by omega),
    highCompoLoop_skip (y := 255) (by norm_num) (wr _ (by norm_num)) (by omega), highCompoLoop_skip (y := 65535) (by norm_num) (wr _ (by norm_num)) (by omega),
    highCompoLoop_skip (y := 42007935) (by norm_num) (wr _ (by norm_num)) (by omega)]
  simp only [List.nil_append, List.cons_append]
  refine highCompoLoop_take (y := 2753074036095) (by norm_num) (wr _ (by norm_num)) (by omega) ?_ ?_
  · simp only [List.cons_append, List.nil_append]
    rw [highCompoBack_skip (y := 917691345365) (by norm_num) (by norm_num) (by omega), highCompoBack_skip (y := 183538269073) (by norm_num) (by norm_num) (by omega),
      highCompoBack_skip (y := 10796368769) (by norm_num) (by norm_num) (by omega)]
    by_cases h : s ≤ 42009217
    · rw [if_pos h, highCompoBack_skip (y := 42009217) (by norm_num) (by norm_num) (by omega)]
      exact highCompoBack_take (y := 65537) (by norm_num) (by norm_num) (by omega) (by norm_num)
    · rw [if_neg h]
      exact highCompoBack_take (y := 42009217) (by norm_num) (by norm_num) (by omega) (by norm_num)
  · split <;> exact wr _ (by norm_num)

theorem factors_of_list {l : List Nat} {N : Nat} (hl : l.prod = N) (hp : ∀ p ∈ l, p.Prime) (hs : l.Pairwise (· ≤ ·)) : N.primeFactorsList = l :=
  ((Nat.primeFactorsList_unique hl hp).eq_of_pairwise (le := (· ≤ ·)) (fun _ _ _ _ => Nat.le_antisymm) hs (Nat.primeFactorsList_sorted _).pairwise).symm

theorem factors_65537 {e : Nat} (h : e = 64 ∨ e = 128) : ∃ C, (2 ^ e - 1).primeFactorsList = 3 :: 5 :: 17 :: 257 :: 641 :: 65537 :: C := by
  rcases h with rfl | rfl
  · refine ⟨[6700417], factors_of_list (by norm_num) (fun p hp => ?_) (by decide)⟩
    simp only [List.mem_cons, List.not_mem_nil, or_false] at hp
    rcases hp with rfl | rfl | rfl | rfl | rfl | rfl | rfl <;> norm_num
  · refine ⟨[274177, 6700417, 67280421310721], factors_of_list (by norm_num) (fun p hp => ?_) (by decide)⟩
    simp only [List.mem_cons, List.not_mem_nil, or_false] at hp
    rcases hp with rfl | rfl | rfl | rfl | rfl | rfl | rfl | rfl | rfl
    on_goal 9 => exact prime_last
    all_goals norm_num

/-- a length that is negative as an `int` is not built -/
theorem ct_not_built_negative {b n : Nat} {mem : Nat → Nat} (h : 2 ^ 31 ≤ n % 2 ^ 32) (T : FT) : CooleyTukey.mk' F b n mem ≠ .ok T := by
  intro e
  unfold CooleyTukey.mk' at e
  obtain ⟨fs, _, e⟩ := bind_ok e
  obtain ⟨w, _, e⟩ := bind_ok e
  have hi : intLen n = .error (.throws .badAlloc) := by
    unfold intLen
    rw [if_neg (by omega)]
  cases fs <;> simp only [CooleyTukey.build, hi] at e <;> cases e

end Quad
