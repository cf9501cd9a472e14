import Verif.Lemmas.Poly
import Verif.Lemmas.Fft2nPrime
import Verif.Props.Ring

/-!
# Properties of src/vec_poly.h (C42)

`coeffPoly p a` is the polynomial over the integers modulo `p` whose
coefficients are the entries of the array `a`.
-/

namespace Quad.Props
open Quad Quad.RingModN Polynomial

/-- the polynomial `a[0] + a[1] X + ...` over the integers modulo `p` -/
noncomputable def coeffPoly (p : Nat) (a : Array Nat) : (ZMod p)[X] :=
  ∑ i ∈ Finset.range a.size, C ((gt a i : Nat) : ZMod p) * X ^ i

/-- a polynomial object over the field of `p` elements: the member `degree` is
inside the array and the coefficients above it are zero -/
structure WF (p : Nat) (P : Poly) : Prop where
  lo : -1 ≤ P.degree
  hi : P.degree < P.buf.size
  red : ∀ i, i < P.buf.size → gt P.buf i < p
  top : ∀ i : Nat, P.degree < i → gt P.buf i = 0

variable {O : Obj} {p : Nat} [Fact p.Prime]

theorem primeChar (H : IsPrimeField O p) : H.sim.Char := by
  have h2 := H.prime.two_le
  refine ⟨fun _ d => ?_, fun d => ?_⟩
  all_goals
    show d % O.ring.card < p ∧ ((d % O.ring.card : Nat) : ZMod p) = d
    rw [H.card]
    exact ⟨Nat.mod_lt _ (by omega), by simp⟩

private theorem wf_iff (H : IsPrimeField O p) (P : Poly) : WF p P ↔ P.Ok H.sim := by
  have h2 := H.prime.two_le
  constructor
  · intro h
    refine ⟨h.lo, h.hi, fun i => ?_, h.top⟩
    show gt P.buf i < p
    by_cases hi : i < P.buf.size
    · exact h.red i hi
    · rw [gt_oob (by omega)]; omega
  · intro h
    exact ⟨h.lo, h.hi, fun i _ => h.V i, h.top⟩

/-- C42: `mul_to_x_plus_coef` multiplies by `X + c`. -/
theorem C42_mul_to_x_plus_coef (H : IsPrimeField O p) {P : Poly} (hP : WF p P) {c d : Nat}
    (hdeg : P.degree = d) (hroom : d + 1 < P.buf.size) (hc : c < p) :
    ∃ P', P.mul_to_x_plus_coef O.gf c = .ok P' ∧ WF p P' ∧ P'.buf.size = P.buf.size ∧
      coeffPoly p P'.buf = coeffPoly p P.buf * (X + C (c : ZMod p)) := by
  obtain ⟨P', e, h1, h2, _, _, h3⟩ := Poly.mul_to_x_plus_coef_spec ((wf_iff H P).mp hP) hdeg hroom (c := c) hc
  exact ⟨P', e, (wf_iff H P').mpr h1, h2, h3⟩

/-- C42: `derivative` is the formal derivative (the polynomial must not be the
empty one, of degree -1). -/
theorem C42_derivative (H : IsPrimeField O p) {P : Poly} (hP : WF p P) {d : Nat} (hdeg : P.degree = d) :
    ∃ P', P.derivative O.gf = .ok P' ∧ WF p P' ∧ P'.buf.size = P.buf.size ∧
      coeffPoly p P'.buf = Polynomial.derivative (coeffPoly p P.buf) := by
  obtain ⟨P', e, h1, h2, _, h3⟩ := Poly.derivative_spec (primeChar H) rfl ((wf_iff H P).mp hP) hdeg
  exact ⟨P', e, (wf_iff H P').mpr h1, h2, h3⟩

/-- C42: `neg` negates the polynomial. -/
theorem C42_neg (H : IsPrimeField O p) {P : Poly} (hP : WF p P) :
    ∃ P', P.neg O.gf = .ok P' ∧ WF p P' ∧ coeffPoly p P'.buf = - coeffPoly p P.buf := by
  obtain ⟨P', e, h1, _, _, h3⟩ := Poly.neg_spec ((wf_iff H P).mp hP)
  exact ⟨P', e, (wf_iff H P').mpr h1, h3⟩

/-- C42: the coefficients of `mul` up to the stated degree are those of the
product; those above are left as they were. -/
theorem C42_mul (H : IsPrimeField O p) {P Q : Poly} (hP : WF p P) (hQ : WF p Q) {deg_out : Nat}
    (h1 : deg_out < P.buf.size) (h2 : deg_out < Q.buf.size) :
    ∃ P', P.mul O.gf Q deg_out = .ok P' ∧ P'.buf.size = P.buf.size ∧
      (∀ i, i ≤ deg_out → gt P'.buf i < p ∧
        ((gt P'.buf i : Nat) : ZMod p) = (coeffPoly p P.buf * coeffPoly p Q.buf).coeff i) ∧
      (∀ i, deg_out < i → gt P'.buf i = gt P.buf i) := by
  obtain ⟨P', e, s1, _, v, h3, h4⟩ := Poly.mul_spec ((wf_iff H P).mp hP) ((wf_iff H Q).mp hQ) h1 h2
  exact ⟨P', e, s1, fun i hi => ⟨v i, h3 i hi⟩, h4⟩

/-- C42: `eval` is evaluation, for objects whose coefficients above `degree` are
zero.  Missing: objects `mul` has left with a stale degree, see
`C42_eval_after_mul`. -/
theorem C42_eval_partial (H : IsPrimeField O p) {P : Poly} (hP : WF p P) {d x : Nat} (hdeg : P.degree = d)
    (hx : x < p) :
    ∃ r, P.eval O.gf x = .ok r ∧ r < p ∧ (r : ZMod p) = (coeffPoly p P.buf).eval (x : ZMod p) := by
  obtain ⟨r, e, h1, h2⟩ := Poly.eval_spec ((wf_iff H P).mp hP) hdeg (x := x) hx
  exact ⟨r, e, h1, h2⟩

/-- `mul` does not update `degree`: `(1 + X)^2` evaluated at 1 gives 3. -/
theorem C42_eval_after_mul :
    ∃ P Q : Poly, WF 257 P ∧ P.mul O257.gf P 2 = .ok Q ∧ gt Q.buf 0 = 1 ∧ gt Q.buf 1 = 2 ∧ gt Q.buf 2 = 1 ∧
      Q.eval O257.gf 1 = .ok 3 := by
  refine ⟨⟨#[1, 1, 0], 1⟩, ⟨#[1, 2, 1], 1⟩, ⟨by decide, by decide, ?_, ?_⟩, by decide +kernel, rfl, rfl, rfl, by decide +kernel⟩
  · intro i hi
    have : i < 3 := hi
    interval_cases i <;> decide
  · intro i hi
    simp only at hi
    by_cases h : i = 2
    · subst h; rfl
    · exact gt_oob (by show 3 ≤ i; omega)

/-- Evaluating a polynomial no coefficient of which was ever set reads `buf[-1]`. -/
theorem C42_eval_fresh_undefined (mem : Array Nat) (F : GF) (x : Nat) : (Poly.mk' mem).eval F x = .error .ub := rfl

example : WF 257 ⟨#[256, 3, 1, 0, 0], 2⟩ := by
  refine ⟨by decide, by decide, ?_, ?_⟩
  · intro i hi
    have : i < 5 := hi
    interval_cases i <;> decide
  · intro i hi
    simp only at hi
    by_cases h : i < 5
    · interval_cases i <;> first | rfl | omega
    · exact gt_oob (by show 5 ≤ i; omega)

end Quad.Props
