import Verif.Model.Poly
import Verif.Lemmas.Ring
import Mathlib.Algebra.Polynomial.Derivative
import Mathlib.Algebra.Polynomial.Eval.Degree

/-! Polynomial operations of vec_poly.h against Mathlib polynomials. -/

namespace Quad
open Polynomial Finset

/-- `S` sends the word the code uses for the number `d` to `d` -/
structure GF.Sim.Char {F : GF} {K : Type} [Field K] (S : F.Sim K) : Prop where
  nat : F.isNF4 = false → ∀ d, S.V (d % F.p) ∧ S.φ (d % F.p) = (d : K)
  rep : ∀ d, S.V (F.replicate (d % F.p)) ∧ S.φ (F.replicate (d % F.p)) = (d : K)

section
variable {F : GF} {K : Type} [Field K] (S : F.Sim K)

/-- the polynomial with the entries of `a` as coefficients -/
noncomputable def polyOf (a : Array Nat) : K[X] := ∑ i ∈ range a.size, C (S.φ (gt a i)) * X ^ i

theorem gt_oob {a : Array Nat} {i : Nat} (h : a.size ≤ i) : gt a i = 0 := by
  simp [gt, h]

theorem polyOf_coeff (a : Array Nat) (m : Nat) : (polyOf S a).coeff m = S.φ (gt a m) := by
  unfold polyOf
  rw [finsetSum_coeff]
  simp only [coeff_C_mul_X_pow]
  by_cases h : m < a.size
  · rw [sum_eq_single m]
    · simp
    · intro b _ hb; rw [if_neg (Ne.symm hb)]
    · intro hm; exact absurd (mem_range.mpr h) hm
  · rw [gt_oob (by omega), S.zero.2]
    apply sum_eq_zero
    intro b hb; rw [if_neg]; have := mem_range.mp hb; omega

theorem polyOf_natDegree_lt (a : Array Nat) {d : Nat} (h : ∀ i, d < i → gt a i = 0) : (polyOf S a).natDegree ≤ d := by
  rw [natDegree_le_iff_coeff_eq_zero]
  intro m hm
  rw [polyOf_coeff, h m hm, S.zero.2]

namespace Poly

/-- representation invariant of a polynomial object -/
structure Ok (P : Poly) : Prop where
  lo : -1 ≤ P.degree
  hi : P.degree < P.buf.size
  V : ∀ i, S.V (gt P.buf i)
  top : ∀ i : Nat, P.degree < i → gt P.buf i = 0

variable {S} {P : Poly}

theorem rdI_ok {a : Array Nat} {i : Nat} (h : i < a.size) : rdI a (i : Int) = .ok (gt a i) := by
  unfold rdI; rw [if_neg (by omega), Int.toNat_natCast, rd_gt h]

theorem wrI_ok {a : Array Nat} {i x : Nat} (h : i < a.size) : wrI a (i : Int) x = .ok (a.setIfInBounds i x) := by
  unfold wrI; rw [if_neg (by omega), Int.toNat_natCast, wr_ok h]

theorem set_spec (hP : P.Ok S) {e c : Nat} (he : e < P.buf.size) (hc : S.V c) :
    ∃ P', P.set e c = .ok P' ∧ P'.Ok S ∧ P'.buf.size = P.buf.size ∧
      (∀ i, gt P'.buf i = if i = e then c else gt P.buf i) ∧
      P'.degree = if (e : Int) > P.degree ∧ c > 0 then (e : Int) else P.degree := by
  unfold Poly.set
  rw [wrI_ok he]
  refine ⟨_, rfl, ⟨?_, ?_, ?_, ?_⟩, by simp, fun i => gt_set he, rfl⟩
  · have := hP.lo; simp only; split <;> omega
  · have := hP.hi; simp only [size_set]; split <;> omega
  · intro i; simp only; rw [gt_set he]; split
    · exact hc
    · exact hP.V i
  · intro i hi
    simp only at hi ⊢
    rw [gt_set he]
    split at hi
    · rw [if_neg (by omega)]; exact hP.top i (by omega)
    · rename_i hn
      split
      · subst_vars; by_contra h0; exact hn ⟨hi, by omega⟩
      · exact hP.top i hi

/-- downward loop replacing entry `d - t` in turn `t` by a function of the
entries at or below it -/
theorem downLoop {buf : Array Nat} {n d : Nat} {body : Nat → Array Nat → Res (Array Nat)} (g : Nat → Nat)
    (hn : n ≤ d + 1) (hd : d < buf.size)
    (hb : ∀ t (b : Array Nat), t < n → b.size = buf.size → (∀ i, i ≤ d - t → gt b i = gt buf i) →
      body t b = .ok (b.setIfInBounds (d - t) (g (d - t)))) :
    ∃ b', forN n buf body = .ok b' ∧ b'.size = buf.size ∧
      ∀ i, gt b' i = if d - n < i ∧ i ≤ d ∨ (n = d + 1 ∧ i ≤ d) then g i else gt buf i := by
  obtain ⟨b', e, h1, h2⟩ := forN_inv (n := n) (s := buf) (f := body)
    (I := fun t (b : Array Nat) => b.size = buf.size ∧
      ∀ i, gt b i = if i ≤ d ∧ d < i + t then g i else gt buf i)
    ⟨rfl, fun i => by rw [if_neg (by omega)]⟩
    (by
      rintro t b ht ⟨h1, h2⟩
      refine ⟨_, hb t b ht h1 (fun i hi => by rw [h2, if_neg (by omega)]), by simpa using h1, ?_⟩
      intro i
      rw [gt_set (by omega), h2]
      by_cases hi : i = d - t
      · rw [if_pos hi, if_pos (by omega), hi]
      · rw [if_neg hi]
        by_cases h3 : i ≤ d ∧ d < i + t
        · rw [if_pos h3, if_pos (by omega)]
        · rw [if_neg h3, if_neg (by omega)])
  refine ⟨b', e, h1, fun i => ?_⟩
  rw [h2]
  by_cases h3 : i ≤ d ∧ d < i + n
  · rw [if_pos h3, if_pos (by omega)]
  · rw [if_neg h3, if_neg (by omega)]

theorem mul_to_x_plus_coef_spec (hP : P.Ok S) {c d : Nat} (hdeg : P.degree = d) (hd : d + 1 < P.buf.size)
    (hc : S.V c) :
    ∃ P', P.mul_to_x_plus_coef F c = .ok P' ∧ P'.Ok S ∧ P'.buf.size = P.buf.size ∧
      P'.degree = (if gt P.buf d > 0 then (d : Int) + 1 else d) ∧
      gt P'.buf (d + 1) = gt P.buf d ∧
      polyOf S P'.buf = polyOf S P.buf * (X + C (S.φ c)) := by
  unfold Poly.mul_to_x_plus_coef
  rw [hdeg, rdI_ok (by omega), ok_bind, Int.toNat_natCast]
  obtain ⟨b, e, s1, h1⟩ := downLoop (buf := P.buf) (n := d) (d := d)
    (body := fun t b => do
      let deg := d - t
      let lo ← rd b (deg - 1)
      let hi ← rd b deg
      wr b deg (F.add lo (F.mul hi c)))
    (fun i => F.add (gt P.buf (i - 1)) (F.mul (gt P.buf i) c)) (by omega) (by omega)
    (by
      intro t b ht hs hb
      simp only
      rw [rd_gt (by omega), ok_bind, rd_gt (by omega), ok_bind, wr_ok (by omega), hb _ (by omega), hb _ (by omega)])
  simp only at e
  rw [e, ok_bind, rd_gt (by omega), ok_bind, wr_ok (by omega), ok_bind]
  have hb0 : gt b 0 = gt P.buf 0 := by rw [h1, if_neg (by omega)]
  have hOk : (⟨b.setIfInBounds 0 (F.mul (gt b 0) c), (d : Int)⟩ : Poly).Ok S := by
    refine ⟨by simp only; omega, by simp only [size_set]; omega, ?_, ?_⟩
    · intro i
      simp only
      rw [gt_set (by omega)]
      split
      · rw [hb0]; exact (S.mul (hP.V 0) hc).1
      · rw [h1]; split
        · exact (S.add (hP.V _) (S.mul (hP.V _) hc).1).1
        · exact hP.V i
    · intro i hi
      simp only at hi ⊢
      rw [gt_set (by omega), if_neg (by omega), h1, if_neg (by omega)]
      exact hP.top i (by omega)
  obtain ⟨P', e', k1, k2, k3, k4⟩ := set_spec hOk (e := d + 1) (c := gt P.buf d) (by simp only [size_set]; omega) (hP.V d)
  refine ⟨P', e', k1, by rw [k2]; simpa using s1, ?_, by rw [k3, if_pos rfl], ?_⟩
  · rw [k4]
    by_cases h0 : gt P.buf d > 0
    · rw [if_pos ⟨by simp only; omega, h0⟩, if_pos h0]; norm_cast
    · rw [if_neg (fun h => h0 h.2), if_neg h0]
  · ext m
    rw [mul_add, coeff_add, coeff_mul_C, polyOf_coeff, polyOf_coeff, k3]
    simp only
    rcases Nat.eq_zero_or_pos m with rfl | hm
    · rw [if_neg (by omega), gt_set (by omega), if_pos rfl, hb0, (S.mul (hP.V 0) hc).2]; simp
    · obtain ⟨m', rfl⟩ : ∃ m', m = m' + 1 := ⟨m - 1, by omega⟩
      rw [coeff_mul_X, polyOf_coeff]
      by_cases hm' : m' + 1 = d + 1
      · rw [if_pos hm', hm', hP.top (d + 1) (by rw [hdeg]; omega), S.zero.2, show m' = d by omega]; simp
      · rw [if_neg hm', gt_set (by omega), if_neg (by omega), h1]
        by_cases h5 : m' + 1 ≤ d
        · rw [if_pos (by omega), (S.add (hP.V _) (S.mul (hP.V _) hc).1).2, (S.mul (hP.V _) hc).2]; simp
        · rw [if_neg (by omega), hP.top (m' + 1) (by rw [hdeg]; omega), hP.top m' (by rw [hdeg]; omega), S.zero.2]; simp

/-- the loop of both `derivative` functions -/
theorem derivLoop (hP : P.Ok S) {d : Nat} (hdeg : P.degree = d) (rep : Nat → Nat)
    (hrep : ∀ e, S.V (rep e) ∧ S.φ (rep e) = (e : K)) :
    ∃ P', (do
        let b ← forN P.degree.toNat P.buf (fun t b => do
          let x ← rd b (t + 1)
          wr b t (F.mul (rep (t + 1)) x))
        let b ← wrI b P.degree 0
        pure (⟨b, P.degree - 1⟩ : Poly)) = .ok P' ∧ P'.Ok S ∧ P'.buf.size = P.buf.size ∧ P'.degree = (d : Int) - 1 ∧
      polyOf S P'.buf = Polynomial.derivative (polyOf S P.buf) := by
  have hhi := hP.hi
  obtain ⟨b, e, s1, h1⟩ := forN_inv (n := d) (s := P.buf) (f := fun t b => do
          let x ← rd b (t + 1)
          wr b t (F.mul (rep (t + 1)) x))
    (I := fun k (b : Array Nat) => b.size = P.buf.size ∧
      ∀ i, gt b i = if i < k then F.mul (rep (i + 1)) (gt P.buf (i + 1)) else gt P.buf i)
    ⟨rfl, fun i => by rw [if_neg (by omega)]⟩
    (by
      rintro k b hk ⟨s1, h1⟩
      refine ⟨_, by rw [rd_gt (by omega), ok_bind, wr_ok (by omega)], by simpa using s1, fun i => ?_⟩
      rw [gt_set (by omega), h1 (k + 1), if_neg (show ¬ k + 1 < k by omega), h1 i]
      by_cases hik : i = k
      · rw [if_pos hik, if_pos (by omega), hik]
      · rw [if_neg hik]
        by_cases hlt : i < k
        · rw [if_pos hlt, if_pos (by omega)]
        · rw [if_neg hlt, if_neg (by omega)])
  rw [hdeg, Int.toNat_natCast, e, ok_bind, wrI_ok (by omega), ok_bind]
  have hall : ∀ i, gt (b.setIfInBounds d 0) i = if i < d then F.mul (rep (i + 1)) (gt P.buf (i + 1)) else 0 := by
    intro i
    rw [gt_set (by omega), h1]
    by_cases h2 : i = d
    · rw [if_pos h2, if_neg (by omega)]
    · rw [if_neg h2]
      by_cases h3 : i < d
      · rw [if_pos h3, if_pos h3]
      · rw [if_neg h3, if_neg h3, hP.top i (by omega)]
  refine ⟨_, rfl, ⟨by simp only; omega, by simp only [size_set]; omega, ?_, ?_⟩, by simpa using s1, rfl, ?_⟩
  · intro i; simp only; rw [hall]; split
    · exact (S.mul (hrep _).1 (hP.V _)).1
    · exact S.zero.1
  · intro i hi; simp only at hi ⊢; rw [hall, if_neg (by omega)]
  · ext m
    rw [polyOf_coeff, coeff_derivative, polyOf_coeff]
    simp only
    rw [hall]
    split
    · rw [(S.mul (hrep _).1 (hP.V _)).2, (hrep _).2]; push_cast; ring
    · rw [hP.top (m + 1) (by omega), S.zero.2]; simp

theorem derivative_spec (hS : S.Char) (hF : F.isNF4 = false) (hP : P.Ok S) {d : Nat} (hdeg : P.degree = d) :
    ∃ P', P.derivative F = .ok P' ∧ P'.Ok S ∧ P'.buf.size = P.buf.size ∧ P'.degree = (d : Int) - 1 ∧
      polyOf S P'.buf = Polynomial.derivative (polyOf S P.buf) :=
  derivLoop hP hdeg (fun e => e % F.p) (hS.nat hF)

theorem derivative_nf4_spec (hS : S.Char) (hP : P.Ok S) {d : Nat} (hdeg : P.degree = d) :
    ∃ P', P.derivative_nf4 F = .ok P' ∧ P'.Ok S ∧ P'.buf.size = P.buf.size ∧ P'.degree = (d : Int) - 1 ∧
      polyOf S P'.buf = Polynomial.derivative (polyOf S P.buf) :=
  derivLoop hP hdeg (fun e => F.replicate (e % F.p)) hS.rep

theorem eval_spec (hP : P.Ok S) {d x : Nat} (hdeg : P.degree = d) (hx : S.V x) :
    ∃ r, P.eval F x = .ok r ∧ S.V r ∧ S.φ r = (polyOf S P.buf).eval (S.φ x) := by
  have hhi := hP.hi
  unfold Poly.eval
  rw [hdeg, rdI_ok (by omega), ok_bind, Int.toNat_natCast]
  obtain ⟨r, e, hV, hr⟩ := forN_inv (n := d) (s := gt P.buf d) (f := fun t r => do
      let y ← rd P.buf (d - t - 1)
      pure (F.add (F.mul r x) y))
    (I := fun t r => S.V r ∧ S.φ r = ∑ i ∈ range (t + 1), S.φ (gt P.buf (d - t + i)) * S.φ x ^ i)
    ⟨hP.V d, by simp⟩
    (by
      rintro t r ht ⟨h1, h2⟩
      refine ⟨_, by rw [rd_gt (by omega), ok_bind]; rfl, (S.add (S.mul h1 hx).1 (hP.V _)).1, ?_⟩
      rw [(S.add (S.mul h1 hx).1 (hP.V _)).2, (S.mul h1 hx).2, h2, sum_range_succ' _ (t + 1), sum_mul]
      congr 1
      · apply sum_congr rfl
        intro i _
        rw [show d - (t + 1) + (i + 1) = d - t + i by omega, pow_succ]; ring
      · simp [show d - (t + 1) = d - t - 1 by omega])
  refine ⟨r, e, hV, ?_⟩
  rw [hr, eval_eq_sum_range' (n := d + 1) (by
    have := polyOf_natDegree_lt S P.buf (d := d) (fun i hi => hP.top i (by omega)); omega)]
  apply sum_congr rfl
  intro i _
  rw [polyOf_coeff]; simp

theorem mulCoef_spec (hP : P.Ok S) {b : Poly} (hb : b.Ok S) {buf : Array Nat} {deg : Nat}
    (hs : buf.size = P.buf.size) (hdeg : deg < P.buf.size) (hdb : deg < b.buf.size)
    (hbuf : ∀ i, i ≤ deg → gt buf i = gt P.buf i) :
    ∃ v, mulCoef F buf b.buf P.degree deg = .ok v ∧ S.V v ∧
      S.φ v = (polyOf S P.buf * polyOf S b.buf).coeff deg := by
  unfold mulCoef
  have hlo := hP.lo
  set N := (min ((deg : Int) + 1) (P.degree + 1)).toNat with hN
  obtain ⟨v, e, hV, hv⟩ := forN_inv (n := N) (s := 0) (f := fun deg_a val => do
      let val_a ← rd buf deg_a
      if val_a > 0 then do
        let val_b ← rd b.buf (deg - deg_a)
        if val_b > 0 then pure (F.add val (F.mul val_a val_b)) else pure val
      else pure val)
    (I := fun k v => S.V v ∧ S.φ v = ∑ i ∈ range k, S.φ (gt P.buf i) * S.φ (gt b.buf (deg - i)))
    ⟨S.zero.1, by simp [S.zero.2]⟩
    (by
      rintro k v hk ⟨h1, h2⟩
      rw [rd_gt (by omega), ok_bind, hbuf k (by omega), sum_range_succ]
      by_cases ha : gt P.buf k > 0
      · rw [if_pos ha, rd_gt (by omega), ok_bind]
        by_cases hb' : gt b.buf (deg - k) > 0
        · rw [if_pos hb']
          have hm := S.mul (hP.V k) (hb.V (deg - k))
          exact ⟨_, rfl, (S.add h1 hm.1).1, by rw [(S.add h1 hm.1).2, hm.2, h2]⟩
        · rw [if_neg hb', show gt b.buf (deg - k) = 0 by omega, S.zero.2]
          exact ⟨_, rfl, h1, by rw [h2]; simp⟩
      · rw [if_neg ha, show gt P.buf k = 0 by omega, S.zero.2]
        exact ⟨_, rfl, h1, by rw [h2]; simp⟩)
  refine ⟨v, e, hV, ?_⟩
  rw [hv, coeff_mul, Nat.sum_antidiagonal_eq_sum_range_succ_mk]
  simp only [polyOf_coeff]
  apply sum_subset (range_subset_range.mpr (by omega))
  intro i hi hi'
  have := mem_range.mp hi
  have h3 : ¬ i < N := fun h => hi' (mem_range.mpr h)
  rw [hP.top i (by omega), S.zero.2, zero_mul]

theorem mul_spec (hP : P.Ok S) {b : Poly} (hb : b.Ok S) {deg_out : Nat} (h1 : deg_out < P.buf.size)
    (h2 : deg_out < b.buf.size) :
    ∃ P', P.mul F b deg_out = .ok P' ∧ P'.buf.size = P.buf.size ∧ P'.degree = P.degree ∧
      (∀ i, S.V (gt P'.buf i)) ∧
      (∀ i, i ≤ deg_out → S.φ (gt P'.buf i) = (polyOf S P.buf * polyOf S b.buf).coeff i) ∧
      (∀ i, deg_out < i → gt P'.buf i = gt P.buf i) := by
  choose g hg using fun (deg : Nat) (h : deg < P.buf.size ∧ deg < b.buf.size) =>
    mulCoef_spec (S := S) hP hb (buf := P.buf) rfl h.1 h.2 (fun _ _ => rfl)
  unfold Poly.mul
  rw [show cassert (decide (deg_out < P.buf.size)) = .ok () by simp [cassert, h1], ok_bind]
  let g' : Nat → Nat := fun i => if h : i < P.buf.size ∧ i < b.buf.size then g i h else 0
  have hcongr : ∀ (buf : Array Nat) (deg : Nat), buf.size = P.buf.size → deg < P.buf.size →
      (∀ i, i ≤ deg → gt buf i = gt P.buf i) →
      mulCoef F buf b.buf P.degree deg = mulCoef F P.buf b.buf P.degree deg := by
    intro buf deg hs hd hbuf
    unfold mulCoef
    have : ∀ n, n ≤ deg + 1 → forN n 0 (fun deg_a val => do
      let val_a ← rd buf deg_a
      if val_a > 0 then do
        let val_b ← rd b.buf (deg - deg_a)
        if val_b > 0 then pure (F.add val (F.mul val_a val_b)) else pure val
      else pure val) = forN n 0 (fun deg_a val => do
      let val_a ← rd P.buf deg_a
      if val_a > 0 then do
        let val_b ← rd b.buf (deg - deg_a)
        if val_b > 0 then pure (F.add val (F.mul val_a val_b)) else pure val
      else pure val) := by
      intro n
      induction n with
      | zero => intro _; rfl
      | succ n ih =>
        intro hn
        unfold forN
        rw [ih (by omega)]
        congr 1
        funext s
        simp only
        rw [rd_gt (a := buf) (by omega), rd_gt (a := P.buf) (by omega), hbuf n (by omega)]
    exact this _ (by omega)
  obtain ⟨r, e, s1, hr⟩ := downLoop (buf := P.buf) (n := deg_out + 1) (d := deg_out)
    (body := fun t buf => do
      let deg := deg_out - t
      let val ← mulCoef F buf b.buf P.degree deg
      wr buf deg val) g' le_rfl h1
    (by
      intro t buf ht hs hbuf
      simp only
      have hb2 : deg_out - t < P.buf.size ∧ deg_out - t < b.buf.size := by omega
      rw [hcongr buf _ hs (by omega) hbuf, (hg _ hb2).1, ok_bind, wr_ok (by omega)]
      simp only [g', hb2, and_self, dite_true])
  simp only at e
  rw [e, ok_bind]
  refine ⟨_, rfl, s1, rfl, ?_, ?_, ?_⟩
  · intro i
    simp only
    rw [hr]
    split
    · simp only [g']; split
      · exact (hg _ _).2.1
      · exact S.zero.1
    · exact hP.V i
  · intro i hi
    simp only
    have hb2 : i < P.buf.size ∧ i < b.buf.size := by omega
    rw [hr, if_pos (by omega)]
    simp only [g', hb2, and_self, dite_true]
    exact (hg _ hb2).2.2
  · intro i hi
    simp only
    rw [hr, if_neg (by omega)]

theorem neg_spec (hP : P.Ok S) :
    ∃ P', P.neg F = .ok P' ∧ P'.Ok S ∧ P'.buf.size = P.buf.size ∧ P'.degree = P.degree ∧
      polyOf S P'.buf = - polyOf S P.buf := by
  have hlo := hP.lo
  have hhi := hP.hi
  unfold Poly.neg
  obtain ⟨b, e, s1, h1⟩ := forN_inv (n := (P.degree + 1).toNat) (s := P.buf) (f := fun i b => do
      let x ← rd b i
      wr b i (F.neg x))
    (I := fun k (b : Array Nat) => b.size = P.buf.size ∧ ∀ i, gt b i = if i < k then F.neg (gt P.buf i) else gt P.buf i)
    ⟨rfl, fun i => by rw [if_neg (by omega)]⟩
    (by
      rintro k b hk ⟨s1, h1⟩
      refine ⟨_, by rw [rd_gt (by omega), ok_bind, wr_ok (by omega)], by simpa using s1, fun i => ?_⟩
      rw [gt_set (by omega), h1 k, if_neg (show ¬ k < k by omega), h1 i]
      by_cases hik : i = k
      · rw [if_pos hik, if_pos (by omega), hik]
      · rw [if_neg hik]
        by_cases hlt : i < k
        · rw [if_pos hlt, if_pos (by omega)]
        · rw [if_neg hlt, if_neg (by omega)])
  rw [e, ok_bind]
  refine ⟨_, rfl, ⟨hlo, by simp only; omega, ?_, ?_⟩, s1, rfl, ?_⟩
  · intro i; simp only; rw [h1]; split
    · exact (S.neg (hP.V i)).1
    · exact hP.V i
  · intro i hi; simp only at hi ⊢; rw [h1, if_neg (by omega), hP.top i hi]
  · ext m
    rw [polyOf_coeff, coeff_neg, polyOf_coeff]
    simp only
    rw [h1]
    split
    · exact (S.neg (hP.V m)).2
    · rw [hP.top m (by omega), S.zero.2]; simp

end Poly
end
end Quad
