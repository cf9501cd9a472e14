import Verif.Lemmas.FftObj
import Verif.Lemmas.FecFnt
import Verif.Spec.FecFft
import Mathlib.Data.Nat.Factors
import Mathlib.Tactic.NormNum.Prime
import Mathlib.Tactic.ReduceModChar
import Mathlib.NumberTheory.LucasPrimality

/-!
# Code lengths: the first factors that suffice are the ones used
-/

namespace Quad
open Arith

namespace Arith

theorem highCompoLoop_prefix {b n : Nat} : ∀ {A pre : List Nat} {C : List Nat} {x r : Nat},
    highCompoLoop b n pre A x = .ok r → highCompoLoop b n pre (A ++ C) x = .ok r := by
  intro A
  induction A with
  | nil => intro pre C x r h; unfold highCompoLoop at h; cases h
  | cons f A ih =>
    intro pre C x r h
    unfold highCompoLoop at h
    rw [List.cons_append]
    unfold highCompoLoop
    simp only at h ⊢
    by_cases hx : wrap b (x * f) ≥ n
    · rw [if_pos hx] at h ⊢
      cases hb : highCompoBack n (pre ++ [f]) (wrap b (x * f)) with
      | error e => rw [hb] at h; exact h
      | ok s =>
        rw [hb] at h
        cases s with
        | inl r' => exact h
        | inr x' => exact ih h
    · rw [if_neg hx] at h ⊢
      exact ih h

/-- the length only uses the first factors, if their product is large enough -/
theorem high_compo_prefix {b n : Nat} {fs A C : List Nat} (hfs : fs = A ++ C) (hpos : ∀ f ∈ fs, 0 < f)
    (hb : fs.prod < 2 ^ b) (hn : 2 ≤ n) (hno : n ≤ A.prod) :
    ∃ r, get_code_len_high_compo_factors b fs n = .ok r ∧ r ∣ A.prod ∧ n ≤ r := by
  subst hfs
  have hC : 0 < C.prod := List.prod_pos (fun x hx => hpos x (by simp [hx]))
  have hA : A.prod ≤ (A ++ C).prod := by
    rw [List.prod_append]
    exact Nat.le_mul_of_pos_right _ hC
  obtain ⟨r, seg, e, h1, h2, h3, _⟩ := high_compo_factors_spec (b := b) (n := n) (fs := A)
    (fun f hf => hpos f (by simp [hf])) (by omega) hn hno
  refine ⟨r, highCompoLoop_prefix e, ?_, h3⟩
  obtain ⟨s, t, hst⟩ := h1
  rw [h2, ← hst, List.prod_append, List.prod_append]
  exact Dvd.dvd.mul_right (Dvd.intro_left _ rfl) _

/-- the list of factors is the sorted list of the prime factors -/
theorem factorList_eq {l : List (Nat × Nat)} {nb : Nat} (hl : IsFactorList l nb) :
    get_prime_factors_from l = nb.primeFactorsList := by
  have h1 : (get_prime_factors_from l).prod = nb := by rw [prod_get_prime_factors, hl.2.2]
  have h2 : ∀ p ∈ get_prime_factors_from l, p.Prime := by
    intro p hp
    unfold get_prime_factors_from at hp
    rw [List.mem_flatMap] at hp
    obtain ⟨pe, hm, hp⟩ := hp
    rw [List.mem_replicate] at hp
    rw [hp.2]; exact (hl.1 pe hm).1
  have h3 : (get_prime_factors_from l).Pairwise (· ≤ ·) := by
    obtain ⟨_, h2, _⟩ := hl
    unfold get_prime_factors_from
    rw [List.pairwise_flatMap]
    refine ⟨?_, ?_⟩
    · intro pe _; rw [List.pairwise_replicate]; right; exact le_refl _
    · refine h2.imp ?_
      intro x y hxy a ha c hc
      rw [List.mem_replicate] at ha hc
      rw [ha.2, hc.2]; exact le_of_lt hxy
  exact (Nat.primeFactorsList_unique h1 h2).eq_of_pairwise' h3 (Nat.primeFactorsList_sorted nb).pairwise

end Arith

/-- `get_code_len_high_compo(m)` of a field object: a divisor of the product of the first prime factors of
`q - 1`, as soon as this product is at least `m` -/
def CodeLens (F : GF) (q : Nat) : Prop :=
  ∀ {A C : List Nat} {m : Nat}, (q - 1).primeFactorsList = A ++ C → 2 ≤ m → m ≤ A.prod →
    ∃ r, F.codeLenHC m = .ok r ∧ r ∣ A.prod ∧ m ≤ r

theorem CodeLens.of_factors {b N m : Nat} {fs A C : List Nat} (hb : N < 2 ^ b) (h0 : N ≠ 0) (hfs : fs = N.primeFactorsList)
    (hA : N.primeFactorsList = A ++ C) (h2 : 2 ≤ m) (hm : m ≤ A.prod) :
    m ≤ N ∧ ∃ r, get_code_len_high_compo_factors b fs m = .ok r ∧ r ∣ A.prod ∧ m ≤ r := by
  have hp := Nat.prod_primeFactorsList h0
  have hpos : ∀ f ∈ fs, 0 < f := by
    intro f hf
    rw [hfs] at hf
    exact (Nat.prime_of_mem_primeFactorsList hf).pos
  refine ⟨?_, high_compo_prefix (hfs.trans hA) hpos (by rw [hfs, hp]; exact hb) h2 hm⟩
  rw [hA, List.prod_append] at hp
  have : C.prod ≠ 0 := by rintro h; rw [h, mul_zero] at hp; exact h0 hp.symm
  calc m ≤ A.prod := hm
    _ ≤ A.prod * C.prod := Nat.le_mul_of_pos_right _ (by omega)
    _ = N := hp

theorem primeCodeLens {O : RingModN.Obj} {p : Nat} (H : RingModN.IsPrimeField O p) : CodeLens O.gf p := by
  intro A C m hA h2 hm
  have hp2 := H.prime.two_le
  obtain ⟨hf, ha, _⟩ := H.spec
  have hc : O.ring.cardM1 = p - 1 := by unfold RingModN.cardM1; rw [H.card]
  have hlt : p - 1 < 2 ^ O.ring.b := by
    have := H.fits.spare; rw [H.card] at this; omega
  obtain ⟨h1, r, e, h3, h4⟩ := CodeLens.of_factors (fs := O.all_primes_factors) hlt (by omega) (by rw [ha]; exact factorList_eq hf) hA h2 hm
  refine ⟨r, ?_, h3, h4⟩
  show O.get_code_len_high_compo m = _
  unfold RingModN.Obj.get_code_len_high_compo
  rw [hc]
  simp only [cassert, h1, decide_true, if_true, ok_bind]
  exact e

theorem binCodeLens {O : BinExt.Obj} {b n : Nat} (h : Spec.IsBinExt O b n) : CodeLens O.gf (2 ^ n) := by
  intro A C m hA h2 hm
  haveI := h.fact
  have B := h.isBinField.2
  have hpos := B.good.H.two_pow_pos
  have hlt : 2 ^ n - 1 < 2 ^ O.F.b := by
    have : 2 ^ n ≤ 2 ^ O.F.b := Nat.pow_le_pow_right (by omega) B.good.hb
    omega
  obtain ⟨h1, r, e, h3, h4⟩ := CodeLens.of_factors (fs := O.all_primes_factors) hlt (by omega) (by rw [B.primes]; exact factorList_eq B.factors) hA h2 hm
  refine ⟨r, ?_, h3, h4⟩
  show O.get_code_len_high_compo m = _
  unfold BinExt.Obj.get_code_len_high_compo
  rw [B.good.cardM1_eq]
  simp only [cassert, h1, decide_true, if_true, ok_bind]
  exact e

/-! ### the first prime factors of the orders of the fields -/

theorem factors_step {N p M : Nat} {A C : List Nat} (h2 : 2 ≤ N) (hN : N.minFac = p) (h : N / p = M) (hM : M.primeFactorsList = A ++ C) :
    N.primeFactorsList = (p :: A) ++ C := by
  obtain ⟨k, rfl⟩ : ∃ k, N = k + 2 := ⟨N - 2, by omega⟩
  rw [Nat.primeFactorsList, hN, h, hM]
  rfl

theorem factors_nil (N : Nat) : N.primeFactorsList = [] ++ N.primeFactorsList := rfl

theorem factors_255 : (2 ^ 8 - 1).primeFactorsList = [3, 5, 17] ++ Nat.primeFactorsList 1 :=
  factors_step (by norm_num) (by norm_num) (M := 85) (by norm_num) <| factors_step (by norm_num) (by norm_num) (M := 17) (by norm_num) <|
    factors_step (by norm_num) (by norm_num) (M := 1) (by norm_num) (factors_nil _)

theorem factors_high {e : Nat} (h : e = 16 ∨ e = 32 ∨ e = 64 ∨ e = 128) :
    ∃ C, (2 ^ e - 1).primeFactorsList = [3, 5, 17, 257] ++ C := by
  refine ⟨((2 ^ e - 1) / 65535).primeFactorsList, ?_⟩
  rcases h with rfl | rfl | rfl | rfl
  · exact factors_step (by norm_num) (by norm_num) (M := 21845) (by norm_num) <| factors_step (by norm_num) (by norm_num) (M := 4369) (by norm_num) <|
      factors_step (by norm_num) (by norm_num) (M := 257) (by norm_num) <| factors_step (by norm_num) (by norm_num) (M := (2 ^ 16 - 1) / 65535)
      (by norm_num) (factors_nil _)
  · exact factors_step (by norm_num) (by norm_num) (M := 1431655765) (by norm_num) <| factors_step (by norm_num) (by norm_num) (M := 286331153) (by norm_num) <|
      factors_step (by norm_num) (by norm_num) (M := 16843009) (by norm_num) <| factors_step (by norm_num) (by norm_num) (M := (2 ^ 32 - 1) / 65535)
      (by norm_num) (factors_nil _)
  · exact factors_step (by norm_num) (by norm_num) (M := 6148914691236517205) (by norm_num) <| factors_step (by norm_num) (by norm_num) (M := 1229782938247303441) (by norm_num) <|
      factors_step (by norm_num) (by norm_num) (M := 72340172838076673) (by norm_num) <| factors_step (by norm_num) (by norm_num) (M := (2 ^ 64 - 1) / 65535)
      (by norm_num) (factors_nil _)
  · exact factors_step (by norm_num) (by norm_num) (M := 113427455640312821154458202477256070485) (by norm_num) <| factors_step (by norm_num) (by norm_num) (M := 22685491128062564230891640495451214097) (by norm_num) <|
      factors_step (by norm_num) (by norm_num) (M := 1334440654591915542993625911497130241) (by norm_num) <| factors_step (by norm_num) (by norm_num) (M := (2 ^ 128 - 1) / 65535)
      (by norm_num) (factors_nil _)

theorem factors_641 {e : Nat} (h : e = 64 ∨ e = 128) :
    ∃ C, (2 ^ e - 1).primeFactorsList = [3, 5, 17, 257, 641] ++ C := by
  refine ⟨((2 ^ e - 1) / 42007935).primeFactorsList, ?_⟩
  rcases h with rfl | rfl
  · exact factors_step (by norm_num) (by norm_num) (M := 6148914691236517205) (by norm_num) <| factors_step (by norm_num) (by norm_num) (M := 1229782938247303441) (by norm_num) <|
      factors_step (by norm_num) (by norm_num) (M := 72340172838076673) (by norm_num) <| factors_step (by norm_num) (by norm_num) (M := 281479271743489)
      (by norm_num) <| factors_step (by norm_num) (by norm_num) (M := (2 ^ 64 - 1) / 42007935) (by norm_num) (factors_nil _)
  · exact factors_step (by norm_num) (by norm_num) (M := 113427455640312821154458202477256070485) (by norm_num) <| factors_step (by norm_num) (by norm_num) (M := 22685491128062564230891640495451214097) (by norm_num) <|
      factors_step (by norm_num) (by norm_num) (M := 1334440654591915542993625911497130241) (by norm_num) <| factors_step (by norm_num) (by norm_num) (M := (2 ^ 128 - 1) / 65535)
      (by norm_num) <| factors_step (by norm_num) (by norm_num) (M := (2 ^ 128 - 1) / 42007935) (by norm_num) (factors_nil _)

/-- the first prime factors of the order of the field of `2^e` elements -/
theorem factors_bin {w : Nat} (h : w ∈ [1, 2, 4, 8, 16]) :
    ∃ A C, (2 ^ (8 * w) - 1).primeFactorsList = A ++ C ∧ A.prod = Spec.fftMax w ∧ ∀ p ∈ A, p ≤ 641 := by
  simp only [List.mem_cons, List.not_mem_nil, or_false] at h
  by_cases h1 : w = 1
  · subst h1
    exact ⟨_, _, factors_255, by decide, by decide⟩
  · by_cases h4 : w ≤ 4
    · have h2 : 8 * w = 16 ∨ 8 * w = 32 ∨ 8 * w = 64 ∨ 8 * w = 128 := by omega
      obtain ⟨C, hC⟩ := factors_high h2
      refine ⟨_, C, hC, ?_, by decide⟩
      unfold Spec.fftMax
      rw [if_neg h1, if_pos h4]; decide
    · have h2 : 8 * w = 64 ∨ 8 * w = 128 := by omega
      obtain ⟨C, hC⟩ := factors_641 h2
      refine ⟨_, C, hC, ?_, by decide⟩
      unfold Spec.fftMax
      rw [if_neg h1, if_neg h4]; decide

theorem factors_pow (p k M : Nat) (hp : p.Prime) : (hM : M ≠ 0) → (h : ∀ q, q.Prime → q ∣ M → p ≤ q) →
    (p ^ k * M).primeFactorsList = List.replicate k p ++ M.primeFactorsList := by
  intro hM h
  refine List.Perm.eq_of_pairwise' ?_ (Nat.primeFactorsList_sorted _).pairwise ?_ |>.symm
  · rw [List.pairwise_append]
    refine ⟨?_, (Nat.primeFactorsList_sorted _).pairwise, ?_⟩
    · rw [List.pairwise_replicate]; right; exact le_refl _
    · intro a ha c hc
      rw [List.mem_replicate] at ha
      rw [ha.2]
      exact h c (Nat.prime_of_mem_primeFactorsList hc) (Nat.dvd_of_mem_primeFactorsList hc)
  · refine Nat.primeFactorsList_unique ?_ ?_
    · rw [List.prod_append, List.prod_replicate, Nat.prod_primeFactorsList hM]
    · intro q hq
      rw [List.mem_append] at hq
      rcases hq with hq | hq
      · rw [List.mem_replicate] at hq; rw [hq.2]; exact hp
      · exact Nat.prime_of_mem_primeFactorsList hq

theorem factors_two_pow (k : Nat) : (2 ^ k).primeFactorsList = List.replicate k 2 ++ [] := by
  have := factors_pow 2 k 1 Nat.prime_two (by norm_num) (fun q hq hd => hq.two_le)
  simpa using this

/-- the order of the field with 4294991873 elements -/
theorem factors_gfp4 : (4294991873 - 1).primeFactorsList = (List.replicate 13 2 ++ [29, 101]) ++ [179] := by
  have := factors_pow 2 13 524291 Nat.prime_two (by norm_num) (fun q hq hd => hq.two_le)
  have h2 : (524291).primeFactorsList = [29, 101, 179] ++ [] := by
    have := factors_step (N := 524291) (p := 29) (by norm_num) (by norm_num) (M := 18079) (by norm_num) <|
      factors_step (p := 101) (by norm_num) (by norm_num) (M := 179) (by norm_num) <|
      factors_step (p := 179) (by norm_num) (by norm_num) (M := 1) (by norm_num) (factors_nil _)
    simpa using this
  rw [h2] at this
  rw [show 4294991873 - 1 = 2 ^ 13 * 524291 by norm_num, this]
  simp

theorem prime_gfp4 : Nat.Prime 4294991873 := by
  refine lucas_primality 4294991873 3 ?_ ?_
  · norm_num only
    reduce_mod_char
  · intro q hq hd
    have hm : q ∈ (4294991873 - 1).primeFactorsList := (Nat.mem_primeFactorsList (by norm_num)).mpr ⟨hq, hd⟩
    rw [factors_gfp4] at hm
    have hq' : q = 2 ∨ q = 29 ∨ q = 101 ∨ q = 179 := by
      simp only [List.mem_append, List.mem_replicate, List.mem_cons, List.not_mem_nil, or_false] at hm
      omega
    rcases hq' with rfl | rfl | rfl | rfl <;> norm_num only <;> reduce_mod_char <;> decide +kernel

end Quad
