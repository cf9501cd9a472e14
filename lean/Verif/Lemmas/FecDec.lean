import Verif.Model.Fec
import Verif.Lemmas.Poly
import Verif.Lemmas.Lagrange

/-!
Word-level decoding over any field simulation and any transform that computes
the discrete Fourier transform.
-/

namespace Quad
open Finset Polynomial

/-! ### small facts on arrays -/

@[simp] theorem fresh_size (mem : Nat → Nat) (n : Nat) : (fresh mem n).size = n := by simp [fresh]

@[simp] theorem zeroExtended_size (a : Array Nat) (n : Nat) : (zeroExtended a n).size = n := by simp [zeroExtended]

theorem zeroExtended_gt {a : Array Nat} {n i : Nat} (h : i < n) : gt (zeroExtended a n) i = gt a i := by
  unfold zeroExtended
  rw [gt_ofFn h]
  by_cases hi : i < a.size
  · rw [if_pos hi]
  · rw [if_neg hi, gt_oob (by omega)]

theorem slice0_size {a : Array Nat} {n : Nat} (h : n ≤ a.size) : (slice0 a n).size = n := by
  simp [slice0, h]

theorem slice0_gt {a : Array Nat} {n i : Nat} : gt (slice0 a n) i = if i < n then gt a i else 0 := by
  unfold slice0 gt
  by_cases hi : i < n
  · rw [if_pos hi]
    by_cases ha : i < a.size
    · have : i < (a.extract 0 n).size := by simp; omega
      simp only [Array.getD, this, ha, dif_pos]
      simp
    · simp [Array.getD, ha]
  · rw [if_neg hi]
    simp [Array.getD, hi]

section
variable {F : GF} {K : Type} [Field K] (S : F.Sim K)

/-- the word used for 1 (fec_context.h:212-216) -/
def GF.oneWord (F : GF) : Nat := if F.isNF4 then F.replicate 1 else 1

/-- A transform object computes the DFT of length `N` at the powers of `w`;
`okLen` are the input lengths `fft` supports. -/
structure FT.Spec (T : FT) (N : Nat) (w : K) (okLen : Nat → Prop) : Prop where
  n : T.n = N
  pos : 0 < N
  nz : (N : K) ≠ 0
  root : IsPrimitiveRoot w N
  fft : ∀ {out input : Array Nat}, out.size = N → okLen input.size → (∀ j, j < input.size → S.V (gt input j)) →
    ∃ r, T.fft out input = .ok r ∧ r.size = N ∧ ∀ i, i < N → S.V (gt r i) ∧
      S.φ (gt r i) = ∑ j ∈ range input.size, w ^ (i * j) * S.φ (gt input j)
  fft_inv : ∀ {out input : Array Nat}, out.size = N → input.size = N → (∀ j, j < N → S.V (gt input j)) →
    ∃ r, T.fft_inv out input = .ok r ∧ r.size = N ∧ ∀ i, i < N → S.V (gt r i) ∧
      S.φ (gt r i) = ∑ j ∈ range N, w⁻¹ ^ (i * j) * S.φ (gt input j)
  ifft : ∀ {out input : Array Nat}, out.size = N → input.size = N → (∀ j, j < N → S.V (gt input j)) →
    ∃ r, T.ifft out input = .ok r ∧ r.size = N ∧ ∀ i, i < N → S.V (gt r i) ∧
      S.φ (gt r i) = (N : K)⁻¹ * ∑ j ∈ range N, w⁻¹ ^ (i * j) * S.φ (gt input j)

variable {S}

/-- a forward transform evaluates the polynomial with the given coefficients -/
theorem FT.Spec.fft_eval {T : FT} {N : Nat} {w : K} {okLen : Nat → Prop} (hT : T.Spec S N w okLen)
    {out input : Array Nat} (h1 : out.size = N) (h2 : okLen input.size) (h3 : ∀ j, j < input.size → S.V (gt input j)) :
    ∃ r, T.fft out input = .ok r ∧ r.size = N ∧ ∀ i, i < N → S.V (gt r i) ∧
      S.φ (gt r i) = (polyOf S input).eval (w ^ i) := by
  obtain ⟨r, e, s, h⟩ := hT.fft h1 h2 h3
  refine ⟨r, e, s, fun i hi => ⟨(h i hi).1, ?_⟩⟩
  rw [(h i hi).2]
  unfold polyOf
  rw [eval_finsetSum]
  apply sum_congr rfl
  intro j _
  simp only [eval_mul, eval_C, eval_pow, eval_X]
  rw [← pow_mul, mul_comm]

theorem hadamardMul_spec {a v : Array Nat} (hs : a.size = v.size) (ha : ∀ j, j < a.size → S.V (gt a j))
    (hv : ∀ j, j < a.size → S.V (gt v j)) :
    ∃ r, hadamardMul F a v = .ok r ∧ r.size = a.size ∧ ∀ i, i < a.size → S.V (gt r i) ∧
      S.φ (gt r i) = S.φ (gt a i) * S.φ (gt v i) := by
  unfold hadamardMul
  simp only [cassert, hs, decide_true, if_true, ok_bind]
  obtain ⟨r, e, h1, h2⟩ := forN_inv (n := v.size) (s := a) (f := fun i a => do
      let x ← rd a i
      let y ← rd v i
      wr a i (F.mul x y))
    (I := fun k (r : Array Nat) => r.size = a.size ∧ ∀ i, gt r i = if i < k then F.mul (gt a i) (gt v i) else gt a i)
    ⟨rfl, by simp⟩ (by
      rintro k r hk ⟨h1, h2⟩
      refine ⟨_, by rw [rd_gt (a := r) (by omega), ok_bind, rd_gt (a := v) (by omega), ok_bind, wr_ok (by omega)], by simp [h1], ?_⟩
      intro i
      rw [gt_set (by omega)]
      by_cases hi : i = k
      · subst hi; rw [if_pos rfl, if_pos (by omega), h2, if_neg (by omega)]
      · rw [if_neg hi, h2]
        by_cases hlt : i < k
        · rw [if_pos hlt, if_pos (by omega)]
        · rw [if_neg hlt, if_neg (by omega)])
  refine ⟨r, e, by omega, fun i hi => ?_⟩
  rw [h2, if_pos hi]
  exact S.mul (ha i (by omega)) (hv i (by omega))

theorem vecNeg_spec {a : Array Nat} (ha : ∀ j, j < a.size → S.V (gt a j)) :
    ∃ r, vecNeg F a = .ok r ∧ r.size = a.size ∧ ∀ i, i < a.size → S.V (gt r i) ∧ S.φ (gt r i) = - S.φ (gt a i) := by
  unfold vecNeg
  obtain ⟨r, e, h1, h2⟩ := forN_inv (n := a.size) (s := a) (f := fun i a => do
      let x ← rd a i
      wr a i (F.neg x))
    (I := fun k (r : Array Nat) => r.size = a.size ∧ ∀ i, gt r i = if i < k then F.neg (gt a i) else gt a i)
    ⟨rfl, by simp⟩ (by
      rintro k r hk ⟨h1, h2⟩
      refine ⟨_, by rw [rd_gt (a := r) (by omega), ok_bind, wr_ok (by omega)], by simp [h1], ?_⟩
      intro i
      rw [gt_set (by omega)]
      by_cases hi : i = k
      · subst hi; rw [if_pos rfl, if_pos (by omega), h2, if_neg (by omega)]
      · rw [if_neg hi, h2]
        by_cases hlt : i < k
        · rw [if_pos hlt, if_pos (by omega)]
        · rw [if_neg hlt, if_neg (by omega)])
  refine ⟨r, e, by omega, fun i hi => ?_⟩
  rw [h2, if_pos hi]
  exact S.neg (ha i hi)

/-! ### the context -/

theorem Ctx.initA_full (hS : S.Char) (hone : S.V F.oneWord ∧ S.φ F.oneWord = 1) {vx : Array Nat} {k n : Nat}
    (mem : Nat → Nat) (hk : k < n) (hvs : k ≤ vx.size) (hv : ∀ i, i < k → S.V (gt vx i)) :
    ∃ A dA, initA F vx k n mem = .ok (A, dA) ∧ A.buf.size = n ∧ dA.buf.size = n ∧
      (∀ i, S.V (gt A.buf i)) ∧ (∀ i, S.V (gt dA.buf i)) ∧
      polyOf S A.buf = locator k (fun i => S.φ (gt vx i)) ∧
      polyOf S dA.buf = derivative (locator k (fun i => S.φ (gt vx i))) ∧ A.Ok S ∧ A.degree = k := by
  have hne : F.oneWord ≠ 0 := by
    intro h; have := hone.2; rw [h, S.zero.2] at this; exact zero_ne_one this
  have h0 : ((Poly.mk' (fresh mem n)).zero_fill).Ok S := by
    refine ⟨by simp [Poly.mk', Poly.zero_fill], by simp [Poly.mk', Poly.zero_fill]; omega, ?_, ?_⟩
    · intro i
      simp only [Poly.mk', Poly.zero_fill, fresh_size]
      by_cases hi : i < n
      · rw [gt_replicate hi]; exact S.zero.1
      · rw [gt_oob (by simp; omega)]; exact S.zero.1
    · intro i _
      simp only [Poly.mk', Poly.zero_fill, fresh_size]
      by_cases hi : i < n
      · rw [gt_replicate hi]
      · rw [gt_oob (by simp; omega)]
  have hsz : ((Poly.mk' (fresh mem n)).zero_fill).buf.size = n := by simp [Poly.mk', Poly.zero_fill]
  obtain ⟨P1, e1, o1, s1, g1, d1⟩ := Poly.set_spec h0 (e := 0) (c := F.oneWord) (by omega) hone.1
  have hz : ∀ i, gt ((Poly.mk' (fresh mem n)).zero_fill).buf i = 0 := fun i => by
    simp only [Poly.mk', Poly.zero_fill, fresh_size]
    by_cases hi : i < n
    · rw [gt_replicate hi]
    · rw [gt_oob (by simp; omega)]
  have hd1 : P1.degree = 0 := by
    rw [d1, if_pos]
    · rfl
    · exact ⟨by simp [Poly.mk', Poly.zero_fill], by omega⟩
  have hp1 : polyOf S P1.buf = 1 := by
    ext m
    rw [polyOf_coeff, g1, hz, coeff_one]
    by_cases hm : m = 0
    · rw [if_pos hm, if_pos hm, hone.2]
    · rw [if_neg hm, if_neg hm, S.zero.2]
  obtain ⟨A, eA, oA, sA, dA, lA, pA⟩ := forN_inv (n := k) (s := P1) (f := fun i A => do
      let x ← rd vx i
      A.mul_to_x_plus_coef F (F.sub 0 x))
    (I := fun t (A : Poly) => A.Ok S ∧ A.buf.size = n ∧ A.degree = t ∧ gt A.buf t = F.oneWord ∧
      polyOf S A.buf = locator t (fun i => S.φ (gt vx i)))
    ⟨o1, by omega, hd1, by rw [g1, if_pos rfl], by rw [hp1]; simp [locator]⟩ (by
      rintro t A ht ⟨i1, i2, i3, i4, i5⟩
      have hx := S.sub S.zero.1 (hv t ht)
      obtain ⟨A', e, o, s, d, l, p⟩ := Poly.mul_to_x_plus_coef_spec i1 i3 (by omega) hx.1
      refine ⟨A', by rw [rd_gt (by omega), ok_bind, e], o, by omega, ?_, by rw [l, i4], ?_⟩
      · rw [d, if_pos (by rw [i4]; omega)]; norm_cast
      · rw [p, i5, hx.2, S.zero.2, zero_sub, map_neg, ← sub_eq_add_neg]
        simp only [locator]
        rw [prod_range_succ])
  obtain ⟨D, eD, oD, sD, _, pD⟩ : ∃ P', (if F.isNF4 then A.derivative_nf4 F else A.derivative F) = .ok P' ∧ P'.Ok S ∧
      P'.buf.size = A.buf.size ∧ P'.degree = (k : Int) - 1 ∧ polyOf S P'.buf = Polynomial.derivative (polyOf S A.buf) := by
    by_cases hF : F.isNF4 = true
    · rw [if_pos hF]; exact Poly.derivative_nf4_spec hS oA dA
    · rw [if_neg hF]; exact Poly.derivative_spec hS (by simpa using hF) oA dA
  refine ⟨A, D, ?_, sA, by omega, oA.V, oD.V, pA, by rw [pD, pA], oA, dA⟩
  unfold initA
  simp only
  have e1' : ((Poly.mk' (fresh mem n)).zero_fill).set 0 (if F.isNF4 = true then F.replicate 1 else 1) = .ok P1 := e1
  rw [e1', ok_bind, eA, ok_bind]
  by_cases hF : F.isNF4 = true
  · rw [if_pos hF] at eD ⊢; rw [eD]; rfl
  · rw [if_neg hF] at eD ⊢; rw [eD]; rfl

theorem Ctx.initA_spec (hS : S.Char) (hone : S.V F.oneWord ∧ S.φ F.oneWord = 1) {vx : Array Nat} {k n : Nat}
    (mem : Nat → Nat) (hk : k < n) (hvs : k ≤ vx.size) (hv : ∀ i, i < k → S.V (gt vx i)) :
    ∃ A dA, initA F vx k n mem = .ok (A, dA) ∧ A.buf.size = n ∧ dA.buf.size = n ∧
      (∀ i, S.V (gt A.buf i)) ∧ (∀ i, S.V (gt dA.buf i)) ∧
      polyOf S A.buf = locator k (fun i => S.φ (gt vx i)) ∧
      polyOf S dA.buf = derivative (locator k (fun i => S.φ (gt vx i))) := by
  obtain ⟨A, dA, e, h1, h2, h3, h4, h5, h6, _⟩ := Ctx.initA_full hS hone mem hk hvs hv
  exact ⟨A, dA, e, h1, h2, h3, h4, h5, h6⟩

theorem Ctx.initInv_spec {ids vx A_fft inv_A_i : Array Nat} {k n : Nat} (hids : k ≤ ids.size) (hlt : ∀ i, i < k → gt ids i < n)
    (hvs : k ≤ vx.size) (hv : ∀ i, i < k → S.V (gt vx i)) (hAs : A_fft.size = n) (hA : ∀ i, i < n → S.V (gt A_fft i))
    (hz : k ≤ inv_A_i.size) (hU : ∀ i, i < k → S.U (F.mul (gt A_fft (gt ids i)) (gt vx i))) :
    ∃ r, initInv F ids vx A_fft none k inv_A_i = .ok r ∧ r.size = inv_A_i.size ∧ ∀ i, i < k → S.V (gt r i) ∧
      S.φ (gt r i) = (S.φ (gt A_fft (gt ids i)) * S.φ (gt vx i))⁻¹ := by
  unfold initInv
  obtain ⟨r, e, h1, h2⟩ := forN_inv (n := k) (s := inv_A_i) (f := fun i inv_A_i => do
      let j ← rd ids i
      let a ← rd A_fft j
      if some i ≠ none then do
        let x ← rd vx i
        let y ← F.inv (F.mul a x)
        wr inv_A_i i y
      else do
        let y ← F.inv a
        wr inv_A_i i y)
    (I := fun t (r : Array Nat) => r.size = inv_A_i.size ∧ ∀ i, i < t → S.V (gt r i) ∧
      S.φ (gt r i) = (S.φ (gt A_fft (gt ids i)) * S.φ (gt vx i))⁻¹)
    ⟨rfl, by simp⟩ (by
      rintro t r ht ⟨h1, h2⟩
      have hm := S.mul (hA _ (hlt t ht)) (hv t ht)
      obtain ⟨y, ey, yV, yφ⟩ := S.inv hm.1 (hU t ht)
      refine ⟨_, by
        rw [rd_gt (a := ids) (by omega), ok_bind, rd_gt (a := A_fft) (by rw [hAs]; exact hlt t ht), ok_bind, if_pos (by simp),
          rd_gt (a := vx) (by omega), ok_bind, ey, ok_bind, wr_ok (by omega)], by simp [h1], ?_⟩
      intro i hi
      rw [gt_set (by omega)]
      by_cases he : i = t
      · subst he; rw [if_pos rfl]; exact ⟨yV, by rw [yφ, hm.2]⟩
      · rw [if_neg he]; exact h2 i (by omega))
  exact ⟨r, e, h1, h2⟩

end

/-- parameters of a word-level decode over a family of simulations `S l` of the
same field object (one per lane, for packed words) -/
structure DecEnv {F : GF} {ι K : Type} [Field K] (S : ι → F.Sim K) (fft fft_2k : FT) (k n len_2k : Nat)
    (w w2 : ι → K) (okLen : Nat → Prop) : Prop where
  char : ∀ l, (S l).Char
  one : ∀ l, (S l).V F.oneWord ∧ (S l).φ F.oneWord = 1
  unit : ∀ l a, (∀ l, (S l).V a ∧ (S l).φ a ≠ 0) → (S l).U a
  kpos : 0 < k
  kn : k < n
  k2 : 2 * k ≤ len_2k
  okn : okLen n
  len : F.codeLenHC (2 * k) = .ok len_2k
  fft : ∀ l, fft.Spec (S l) n (w l) okLen
  fft_2k : ∀ l, fft_2k.Spec (S l) len_2k (w2 l) (fun m => m = len_2k)

/-- what a context holds, apart from its scratch vectors and `props_indices` -/
structure Ctx.Good {F : GF} {K : Type} [Field K] (S : F.Sim K) (C : Ctx) (k n len_2k : Nat) (w w2 : K)
    (ids : Array Nat) : Prop where
  len : C.len_2k = len_2k
  idsEq : C.fragments_ids = ids
  invSize : C.inv_A_i.size = k
  inv : ∀ i, i < k → S.V (gt C.inv_A_i i) ∧ S.φ (gt C.inv_A_i i)
    = ((derivative (locator k (fun i => w ^ gt ids i))).eval (w ^ gt ids i) * w ^ gt ids i)⁻¹
  ASize : C.A_fft_2k.size = len_2k
  A : ∀ j, j < len_2k → S.V (gt C.A_fft_2k j) ∧
    S.φ (gt C.A_fft_2k j) = (locator k (fun i => w ^ gt ids i)).eval (w2 ^ j)
  v1n : C.vec1_n.size = n
  v2n : C.vec2_n.size = n
  v12 : C.vec1_2k.size = len_2k
  v22 : C.vec2_2k.size = len_2k

section
variable {F : GF} {ι K : Type} [Field K] {S : ι → F.Sim K} {fft fft_2k : FT} {k n len_2k : Nat}
  {w w2 : ι → K} {okLen : Nat → Prop}

theorem Ctx.mk'_spec [Nonempty ι] (E : DecEnv S fft fft_2k k n len_2k w w2 okLen) {ids vx : Array Nat} {props : Array Properties}
    (mem : Nat → Nat) (hids : ids.size = k) (hlt : ∀ i, i < k → gt ids i < n)
    (hinj : Set.InjOn (fun i => gt ids i) (range k)) (hvs : vx.size = k)
    (hv : ∀ l i, i < k → (S l).V (gt vx i) ∧ (S l).φ (gt vx i) = w l ^ gt ids i) :
    ∃ C, Ctx.mk' F fft (some fft_2k) ids props vx k n none mem = .ok (C, props.map Properties.sort) ∧
      C.props_indices = Array.replicate props.size 0 ∧ ∀ l, C.Good (S l) k n len_2k (w l) (w2 l) ids := by
  have hA : ∀ l, _ := fun l => Ctx.initA_spec (E.char l) (E.one l) mem E.kn hvs.ge (fun i hi => (hv l i hi).1)
  obtain ⟨l0⟩ := (inferInstance : Nonempty ι)
  obtain ⟨A, dA, eA, sA, sD, vA, vD, pA, pD⟩ := hA l0
  have hA' : ∀ l, (∀ i, (S l).V (gt A.buf i)) ∧ (∀ i, (S l).V (gt dA.buf i)) ∧
      polyOf (S l) A.buf = locator k (fun i => (S l).φ (gt vx i)) ∧
      polyOf (S l) dA.buf = derivative (locator k (fun i => (S l).φ (gt vx i))) := by
    intro l
    obtain ⟨A', dA', e', _, _, h⟩ := hA l
    rw [eA] at e'; cases e'
    exact h
  have hloc : ∀ l, locator k (fun i => (S l).φ (gt vx i)) = locator k (fun i => w l ^ gt ids i) := by
    intro l
    unfold locator
    refine prod_congr rfl (fun i hi => ?_)
    simp only
    rw [(hv l i (mem_range.mp hi)).2]
  have hF : ∀ l, _ := fun l => (E.fft l).fft_eval (out := fresh mem n) (input := dA.buf) (by simp)
    (by rw [sD]; exact E.okn) (fun j _ => (hA' l).2.1 j)
  obtain ⟨Af, eF, sF, _⟩ := hF l0
  have hF' : ∀ l i, i < n → (S l).V (gt Af i) ∧
      (S l).φ (gt Af i) = (derivative (locator k (fun i => w l ^ gt ids i))).eval (w l ^ i) := by
    intro l
    obtain ⟨Af', e', _, h⟩ := hF l
    rw [eF] at e'; cases e'
    intro i hi
    rw [← hloc l, ← (hA' l).2.2.2]
    exact h i hi
  have hxinj : ∀ l, Set.InjOn (fun i => w l ^ gt ids i) (range k) := by
    intro l i hi j hj he
    have hi' : i < k := by simpa using hi
    have hj' : j < k := by simpa using hj
    exact hinj hi hj ((E.fft l).root.pow_inj (hlt i hi') (hlt j hj') he)
  have hw0 : ∀ l, w l ≠ 0 := fun l => (E.fft l).root.ne_zero (by have := E.kn; omega)
  have hU : ∀ l i, i < k → (S l).U (F.mul (gt Af (gt ids i)) (gt vx i)) := by
    intro l i hi
    refine E.unit l _ (fun l => ?_)
    have hm := (S l).mul (hF' l _ (hlt i hi)).1 (hv l i hi).1
    refine ⟨hm.1, ?_⟩
    rw [hm.2, (hF' l _ (hlt i hi)).2, (hv l i hi).2]
    exact mul_ne_zero (locator_deriv_ne (x := fun i => w l ^ gt ids i) (hxinj l) hi) (pow_ne_zero _ (hw0 l))
  have hI : ∀ l, _ := fun l => Ctx.initInv_spec (S := S l) (inv_A_i := fresh mem k) hids.ge hlt hvs.ge
    (fun i hi => (hv l i hi).1) sF (fun i hi => (hF' l i hi).1) (by simp) (hU l)
  obtain ⟨iv, eI, sI, _⟩ := hI l0
  have hI' : ∀ l i, i < k → (S l).V (gt iv i) ∧ (S l).φ (gt iv i)
      = ((derivative (locator k (fun i => w l ^ gt ids i))).eval (w l ^ gt ids i) * w l ^ gt ids i)⁻¹ := by
    intro l
    obtain ⟨iv', e', _, h⟩ := hI l
    rw [eI] at e'; cases e'
    intro i hi
    refine ⟨(h i hi).1, ?_⟩
    rw [(h i hi).2, (hF' l _ (hlt i hi)).2, (hv l i hi).2]
  have hZ : ∀ l, polyOf (S l) (zeroExtended A.buf len_2k) = polyOf (S l) A.buf := by
    intro l
    ext m
    rw [polyOf_coeff]
    by_cases hm : m < len_2k
    · rw [zeroExtended_gt hm, polyOf_coeff]
    · rw [gt_oob (by simp; omega), (S l).zero.2, (hA' l).2.2.1, coeff_eq_zero_of_natDegree_lt]
      rw [locator_natDegree]; have := E.k2; have := E.kpos; omega
  have h2 : ∀ l, _ := fun l => (E.fft_2k l).fft_eval (out := fresh mem len_2k) (input := zeroExtended A.buf len_2k) (by simp)
    (by simp) (fun j hj => by
      rw [zeroExtended_size] at hj
      rw [zeroExtended_gt hj]; exact (hA' l).1 j)
  obtain ⟨A2, e2, s2, _⟩ := h2 l0
  have h2' : ∀ l j, j < len_2k → (S l).V (gt A2 j) ∧
      (S l).φ (gt A2 j) = (locator k (fun i => w l ^ gt ids i)).eval (w2 l ^ j) := by
    intro l
    obtain ⟨A2', e', _, h⟩ := h2 l
    rw [e2] at e'; cases e'
    intro j hj
    rw [← hloc l, ← (hA' l).2.2.1, ← hZ l]
    exact h j hj
  refine ⟨{ vx_zero := none, props_indices := Array.replicate props.size 0, k := k, n := n,
            len_2k := len_2k, fragments_ids := ids, A := A, A_fft_2k := A2, inv_A_i := iv,
            vec1_n := Array.replicate n 0, vec2_n := Array.replicate n 0,
            vec1_2k := fresh mem len_2k, vec2_2k := fresh mem len_2k }, ?_, rfl, fun l => ?_⟩
  · unfold Ctx.mk'
    rw [E.len, ok_bind]
    simp only
    rw [eA, ok_bind]
    simp only
    rw [eF, ok_bind, eI, ok_bind, e2, ok_bind]
    rfl
  · exact ⟨rfl, rfl, by simpa using sI, hI' l, s2, h2' l, by simp, by simp, by simp, by simp⟩

/-- `decode_apply` finds the coefficients of the polynomial of degree below `k`
that takes the given values at the points of the received fragments. -/
theorem FecBase.decode_apply_spec {B : FecBase} {S : B.F.Sim K} {w w2 : K} (hk : 0 < k) (hkn : k < n) (hk2 : 2 * k ≤ len_2k)
    (hB : B.n_data = k) (hfft : B.fft.Spec S n w okLen) (hfft2 : B.fft_2k.Spec S len_2k w2 (fun m => m = len_2k))
    {C : Ctx} {ids : Array Nat} (hC : C.Good S k n len_2k w w2 ids)
    (hids : ids.size = k) (hlt : ∀ i, i < k → gt ids i < n) (hinj : Set.InjOn (fun i => gt ids i) (range k))
    {output words : Array Nat} (hout : output.size = k) (hwords : k ≤ words.size) (hwV : ∀ i, i < k → S.V (gt words i)) :
    ∃ C' r, B.decode_apply C output words = .ok (C', r) ∧ r.size = k ∧ C'.props_indices = C.props_indices ∧
      C'.Good S k n len_2k w w2 ids ∧ (∀ i, i < k → S.V (gt r i)) ∧
      ∀ P : K[X], P.degree < k → (∀ i, i < k → S.φ (gt words i) = P.eval (w ^ gt ids i)) →
        ∀ i, i < k → S.φ (gt r i) = P.coeff i := by
  have hw0 : w ≠ 0 := hfft.root.ne_zero (by omega)
  have hxinj : Set.InjOn (fun i => w ^ gt ids i) (range k) := by
    intro i hi j hj he
    exact hinj hi hj (hfft.root.pow_inj (hlt i (by simpa using hi)) (hlt j (by simpa using hj)) he)
  -- N(x)
  obtain ⟨N, eN, sN, hN1, hN2⟩ := forN_inv (n := k) (s := Array.replicate n 0) (f := fun i v => do
      let j ← rd C.fragments_ids i
      let x ← rd words i
      let a ← rd C.inv_A_i i
      wr v j (B.F.mul x a))
    (I := fun t (v : Array Nat) => v.size = n ∧ (∀ i, i < t → gt v (gt ids i) = B.F.mul (gt words i) (gt C.inv_A_i i)) ∧
      ∀ j, j < n → (∀ i, i < t → gt ids i ≠ j) → gt v j = 0)
    ⟨by simp, by simp, fun j hj _ => gt_replicate hj⟩ (by
      rintro t v ht ⟨h1, h2, h3⟩
      have hl := hlt t ht
      refine ⟨_, by rw [hC.idsEq, rd_gt (a := ids) (by omega), ok_bind, rd_gt (a := words) (by omega), ok_bind,
        rd_gt (a := C.inv_A_i) (by rw [hC.invSize]; omega), ok_bind, wr_ok (by omega)], by simp [h1], ?_, ?_⟩
      · intro i hi
        rw [gt_set (by omega)]
        by_cases he : i = t
        · subst he; rw [if_pos rfl]
        · rw [if_neg, h2 i (by omega)]
          intro h
          exact he (hinj (by simp; omega) (by simp; omega) h)
      · intro j hj hne
        rw [gt_set (by omega), if_neg (fun h => hne t (by omega) h.symm)]
        exact h3 j hj (fun i hi => hne i (by omega)))
  have hNV : ∀ j, j < n → S.V (gt N j) := by
    intro j hj
    by_cases h : ∃ i, i < k ∧ gt ids i = j
    · obtain ⟨i, hi, rfl⟩ := h
      rw [hN1 i hi]
      exact (S.mul (hwV i hi) (hC.inv i hi).1).1
    · rw [hN2 j hj (fun i hi he => h ⟨i, hi, he⟩)]
      exact S.zero.1
  obtain ⟨Q, eQ, sQ, hQ⟩ := hfft.fft_inv (out := C.vec2_n) (input := N) hC.v2n sN hNV
  set c : Nat → K := fun i => S.φ (gt words i) * S.φ (gt C.inv_A_i i) with hc
  have hQ' : ∀ j, j < n → S.φ (gt Q j) = ∑ i ∈ range k, c i * (w ^ gt ids i)⁻¹ ^ j := by
    intro j hj
    rw [(hQ j hj).2]
    rw [sum_support (z := fun i => gt ids i) hinj hlt]
    · apply sum_congr rfl
      intro i hi
      have hi' := mem_range.mp hi
      rw [hN1 i hi', (S.mul (hwV i hi') (hC.inv i hi').1).2, mul_comm, hc]
      rw [← inv_pow, ← pow_mul, mul_comm j]
    · intro j' hj' hne
      rw [hN2 j' hj' hne, S.zero.2, mul_zero]
  set T := zeroExtended (slice0 Q k) len_2k with hT
  have hTs : T.size = len_2k := by simp [hT]
  have hTg : ∀ i, gt T i = if i < k then gt Q i else 0 := by
    intro i
    by_cases hi : i < len_2k
    · rw [hT, zeroExtended_gt hi, slice0_gt]
    · rw [gt_oob (by omega), if_neg (by omega)]
  have hTp : polyOf S T = series k (fun i => w ^ gt ids i) c := by
    ext m
    rw [polyOf_coeff, hTg]
    unfold series
    rw [finsetSum_coeff]
    simp only [coeff_C_mul_X_pow]
    by_cases hm : m < k
    · rw [if_pos hm, hQ' m (by omega)]
      symm
      rw [sum_eq_single m]
      · rw [if_pos rfl]
      · intro b _ hb; rw [if_neg (Ne.symm hb)]
      · intro h; exact absurd (mem_range.mpr hm) h
    · rw [if_neg hm, S.zero.2, sum_eq_zero]
      intro b hb
      have := mem_range.mp hb
      rw [if_neg (by omega)]
  obtain ⟨Y, eY, sY, hY⟩ := hfft2.fft_eval (out := C.vec1_2k) (input := T) hC.v12 hTs (fun j hj => by
    rw [hTg]
    by_cases hjk : j < k
    · rw [if_pos hjk]; exact (hQ j (by omega)).1
    · rw [if_neg hjk]; exact S.zero.1)
  obtain ⟨Z, eZ, sZ, hZ⟩ := hadamardMul_spec (S := S) (a := Y) (v := C.A_fft_2k) (by rw [sY, hC.ASize])
    (fun j hj => (hY j (by omega)).1) (fun j hj => (hC.A j (by omega)).1)
  obtain ⟨U, eU, sU, hU⟩ := hfft2.ifft (out := C.vec2_2k) (input := Z) hC.v22 (by omega) (fun j hj => (hZ j (by omega)).1)
  obtain ⟨V, eV, sV, hV⟩ := vecNeg_spec (S := S) (a := U) (fun j hj => (hU j (by omega)).1)
  have eO : ∃ r, forN k output (fun i output => do
      let x ← rd V i
      wr output i x) = .ok r ∧ r.size = k ∧ ∀ i, i < k → gt r i = gt V i := by
    obtain ⟨r, e, h1, h2⟩ := forN_inv (n := k) (s := output) (f := fun i output => do
        let x ← rd V i
        wr output i x)
      (I := fun t (r : Array Nat) => r.size = k ∧ ∀ i, i < t → gt r i = gt V i) ⟨hout, by simp⟩ (by
        rintro t r ht ⟨h1, h2⟩
        refine ⟨_, by rw [rd_gt (a := V) (by omega), ok_bind, wr_ok (by omega)], by simp [h1], ?_⟩
        intro i hi
        rw [gt_set (by omega)]
        by_cases he : i = t
        · subst he; rw [if_pos rfl]
        · rw [if_neg he]; exact h2 i (by omega))
    exact ⟨r, e, h1, h2⟩
  obtain ⟨r, er, sr, hr⟩ := eO
  refine ⟨{ C with vec1_n := N, vec2_n := Q, vec1_2k := Z, vec2_2k := V }, r, ?_, sr, rfl, ?_, ?_, ?_⟩
  · unfold FecBase.decode_apply
    simp only [hB, hC.v1n, hC.len]
    rw [eN, ok_bind, eQ, ok_bind, eY, ok_bind, eZ, ok_bind, eU, ok_bind, eV, ok_bind, er, ok_bind]
    rfl
  · exact ⟨hC.len, hC.idsEq, hC.invSize, hC.inv, hC.ASize, hC.A, sN, sQ, by simp only; omega, by simp only; omega⟩
  · intro i hi
    rw [hr i hi]
    exact (hV i (by omega)).1
  · intro P hP hval i hi
    rw [hr i hi, (hV i (by omega)).2, (hU i (by omega)).2]
    have hprod : ∀ j ∈ range len_2k, w2⁻¹ ^ (i * j) * S.φ (gt Z j)
        = w2⁻¹ ^ (i * j) * (series k (fun i => w ^ gt ids i) c * locator k (fun i => w ^ gt ids i)).eval (w2 ^ j) := by
      intro j hj
      have hj' := mem_range.mp hj
      rw [(hZ j (by omega)).2, (hY j hj').2, (hC.A j hj').2, hTp, eval_mul]
    rw [sum_congr rfl hprod, dft_eval_inv (f := series k (fun i => w ^ gt ids i) c * locator k (fun i => w ^ gt ids i)) _ hfft2.root (by omega), ← mul_assoc, inv_mul_cancel₀ hfft2.nz, one_mul,
      mul_comm (series _ _ _), locator_mul_series_coeff hxinj (fun i _ => pow_ne_zero _ hw0) hP _ hi, neg_neg]
    · intro i hi
      simp only [hc]
      rw [hval i hi, (hC.inv i hi).2]
    · refine lt_of_le_of_lt natDegree_mul_le ?_
      have h1 := series_natDegree_lt hk (fun i => w ^ gt ids i) c
      have h2 := locator_natDegree k (fun i => w ^ gt ids i)
      omega

end
end Quad
