import Verif.Lemmas.BinObj
import Verif.Spec.Gf2n

/-!
From the words of the model to the polynomials of the specification.
-/

namespace Quad
open Polynomial Finset Spec BinExt

theorem bev_eq_sum {K : Type*} [CommRing K] (r : K) : ∀ n a, a < 2 ^ n → bev r a = ∑ i ∈ range n, if a.testBit i then r ^ i else 0 := by
  intro n
  induction n with
  | zero =>
    intro a ha
    have : a = 0 := by simpa using ha
    subst this
    simp
  | succ n ih =>
    intro a ha
    rw [bev_step, ih (a / 2) (by rw [pow_succ] at ha; omega), sum_range_succ']
    rw [mul_sum, add_comm]
    congr 1
    · apply sum_congr rfl
      intro i _
      rw [Nat.testBit_succ]
      split <;> ring
    · rw [Nat.testBit_zero]
      by_cases h : a % 2 = 1 <;> simp [h]

theorem binWord_eq {n a : Nat} (h : a < 2 ^ n) : binWord n a = bev X a := (bev_eq_sum X n a h).symm

theorem size_of {n : Nat} (h : n ∈ [1, 2, 3, 4, 8, 16, 32, 64, 128]) : Size n := by
  simpa [Size] using h

theorem binModulus_eq {n : Nat} (h : Size n) : binModulus n = binPoly n (lowOf n) := by
  unfold binPoly
  rcases h with rfl | rfl | rfl | rfl | rfl | rfl | rfl | rfl | rfl
  all_goals (
    rw [bev_eq_sum X 13 _ (by decide)]
    simp [binModulus, lowOf, sum_range_succ, Nat.testBit, Nat.shiftRight_eq_div_pow]
    try ring)

/-- the field of a supported size -/
abbrev BinK (n : Nat) : Type := AdjoinRoot (binPoly n (lowOf n))

/-- its root -/
noncomputable abbrev binR (n : Nat) : BinK n := AdjoinRoot.root (binPoly n (lowOf n))

theorem supported_of {b n : Nat} (h : BinSupported b n) : Supported b n := ⟨size_of h.size, h.bytes, h.spare, h.room⟩

theorem fact_of {n : Nat} (h : Size n) : Fact (Irreducible (binPoly n (lowOf n))) := ⟨(lowOf_irr h).2⟩

theorem binField_of {n : Nat} (h : Size n) :
    haveI := fact_of h
    BinField n (lowOf n) (BinK n) (binR n) := binField_of_irr h.pos (lowOf_irr h).1 (lowOf_irr h).2

theorem exists_binExt {b n : Nat} (h : BinSupported b n) (junk : Nat → Nat → Nat) (junk3 : Nat → Nat → Nat → Nat) :
    haveI := fact_of (size_of h.size)
    ∃ O, (mk' b n junk junk3 >>= BinExt.init) = .ok O ∧ O.F.b = b ∧ IsBinField O n (lowOf n) (BinK n) (binR n) := by
  haveI := fact_of (size_of h.size)
  obtain ⟨F, e, hb, G⟩ := mk'_spec (supported_of h) (binField_of (size_of h.size)) junk junk3
  obtain ⟨O, e2, h1, h2, h3, h4, h5⟩ := G.init_spec
  subst h1
  exact ⟨O, by rw [e, ok_bind, e2], hb, ⟨G, h2, h3, h4, h5⟩⟩

theorem Spec.IsBinExt.fact {O : Obj} {b n : Nat} (h : IsBinExt O b n) : Fact (Irreducible (binPoly n (lowOf n))) :=
  fact_of (size_of h.ok.size)

theorem Spec.IsBinExt.isBinField {O : Obj} {b n : Nat} (h : IsBinExt O b n) :
    haveI := h.fact
    O.F.b = b ∧ IsBinField O n (lowOf n) (BinK n) (binR n) := by
  haveI := h.fact
  obtain ⟨j, j3, e⟩ := h.built
  obtain ⟨O', e', h1, h2⟩ := exists_binExt h.ok j j3
  rw [e] at e'
  cases e'
  exact ⟨h1, h2⟩

/-- equal values at the root are equal remainders -/
theorem mod_of_root {n : Nat} (h : Size n) {m : Nat} (hm : m < 2 ^ n) {p : (ZMod 2)[X]}
    (e : bev (binR n) m = AdjoinRoot.mk (binPoly n (lowOf n)) p) : binWord n m = p %ₘ binModulus n := by
  have hmon := binPoly_monic (lowOf_irr h).1
  have hdeg : (binPoly n (lowOf n)).degree = n := by
    rw [degree_eq_natDegree hmon.ne_zero, binPoly_natDegree (lowOf_irr h).1]
  rw [binWord_eq hm, binModulus_eq h]
  have hmk : bev (binR n) m = AdjoinRoot.mk (binPoly n (lowOf n)) (bev X m) := by
    rw [map_bev X (AdjoinRoot.mk (binPoly n (lowOf n))), AdjoinRoot.mk_X]
  rw [hmk, AdjoinRoot.mk_eq_mk] at e
  have h1 : bev X m %ₘ binPoly n (lowOf n) = bev X m :=
    (modByMonic_eq_self_iff hmon).mpr (by rw [hdeg]; exact bev_degree hm)
  rw [← h1]
  have := (modByMonic_eq_zero_iff_dvd hmon).mpr e
  rw [sub_modByMonic, sub_eq_zero] at this
  exact this

theorem root_eq_mk {n a : Nat} (ha : a < 2 ^ n) : bev (binR n) a = AdjoinRoot.mk (binPoly n (lowOf n)) (binWord n a) := by
  rw [binWord_eq ha, map_bev X (AdjoinRoot.mk (binPoly n (lowOf n))), AdjoinRoot.mk_X]

end Quad
