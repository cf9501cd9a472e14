import Verif.Spec.FftAdd
import Verif.Lemmas.FftAdd
import Verif.Lemmas.FftObj
import Mathlib.FieldTheory.IntermediateField.Adjoin.Basic
import Mathlib.FieldTheory.Finiteness
import Mathlib.FieldTheory.Minpoly.Field

/-!
# The additive transform over a binary field object
-/

namespace Quad
open Finset Polynomial Spec

namespace Additive
variable {K : Type} [Field K] {F : GF} [F.Plain] {S : F.Sim K}

theorem spanPoint_sem (hadd : ∀ x y, F.add x y = x ^^^ y) {basis : Array Nat} (hV : ∀ j, j < basis.size → S.V (gt basis j)) (i : Nat) :
    S.V (spanPoint basis i) ∧ S.φ (spanPoint basis i) = span (fun j => S.φ (gt basis j)) basis.size i := by
  unfold spanPoint span
  have key : ∀ m, m ≤ basis.size → S.V ((List.range m).foldl (fun acc j => if i.testBit j then acc ^^^ gt basis j else acc) 0) ∧
      S.φ ((List.range m).foldl (fun acc j => if i.testBit j then acc ^^^ gt basis j else acc) 0) =
        ∑ j ∈ range m, if i.testBit j then S.φ (gt basis j) else 0 := by
    intro m
    induction m with
    | zero => intro _; exact ⟨S.zero.1, by simpa using S.zero.2⟩
    | succ m ih =>
      intro hm
      obtain ⟨h1, h2⟩ := ih (by omega)
      rw [List.range_succ, List.foldl_append, List.foldl_cons, List.foldl_nil, sum_range_succ]
      split
      · have := S.add h1 (hV m (by omega))
        rw [hadd] at this
        exact ⟨this.1, by rw [this.2, h2]⟩
      · exact ⟨h1, by rw [h2, add_zero]⟩
  exact key _ le_rfl

theorem evalAt_sem {x : Array Nat} {y : Nat} (hx : AllV S x) (hy : S.V y) :
    S.V (evalAt F x y) ∧ S.φ (evalAt F x y) = (polyOf S x).eval (S.φ y) := by
  have h := dftAt_sem hy (x := x) (fun j _ => hx j) 1
  have e : evalAt F x y = dftAt F y x 1 := by
    unfold evalAt dftAt
    congr 1
    funext acc j
    rw [one_mul]
  rw [e]
  refine ⟨h.1, ?_⟩
  rw [h.2, polyOf_eq, eval_cPoly]
  exact sum_congr rfl fun j _ => by rw [one_mul, mul_comm]

theorem indep_of (hF : S.Full) (hadd : ∀ x y, F.add x y = x ^^^ y) {basis : Array Nat} (hV : ∀ j, j < basis.size → S.V (gt basis j))
    (h : Independent basis) : Indep (fun j => S.φ (gt basis j)) basis.size := by
  intro i hi h0 hz
  have hs := spanPoint_sem hadd hV i
  rw [← hs.2] at hz
  exact h i (by omega) hi ((hF.eq_zero hs.1).1 hz)

/-- powers of an element of large order are independent -/
theorem degree_minpoly [Algebra (ZMod 2) K] {g : K} {n : Nat} (hn : 0 < n) (hg : orderOf g = 2 ^ n - 1) :
    IsIntegral (ZMod 2) g ∧ n ≤ (minpoly (ZMod 2) g).natDegree := by
  have hpos : 2 ≤ 2 ^ n := by
    calc 2 = 2 ^ 1 := rfl
      _ ≤ 2 ^ n := Nat.pow_le_pow_right (by omega) hn
  have hint : IsIntegral (ZMod 2) g := by
    refine ⟨X ^ (2 ^ n - 1) - 1, monic_X_pow_sub_C 1 (by omega), ?_⟩
    rw [← hg]
    simp [pow_orderOf_eq_one]
  refine ⟨hint, ?_⟩
  have hg0 : g ≠ 0 := by
    rintro rfl
    have := pow_orderOf_eq_one (0 : K)
    rw [hg, zero_pow (by omega)] at this
    exact zero_ne_one this
  haveI : FiniteDimensional (ZMod 2) (IntermediateField.adjoin (ZMod 2) {g}) := IntermediateField.adjoin.finiteDimensional hint
  haveI : Finite (IntermediateField.adjoin (ZMod 2) {g}) := Module.finite_of_finite (ZMod 2)
  haveI := Fintype.ofFinite (IntermediateField.adjoin (ZMod 2) {g})
  have hcard := Module.card_eq_pow_finrank (K := ZMod 2) (V := IntermediateField.adjoin (ZMod 2) {g})
  rw [IntermediateField.adjoin.finrank hint, ZMod.card] at hcard
  have hmem : g ∈ IntermediateField.adjoin (ZMod 2) {g} := IntermediateField.mem_adjoin_simple_self _ _
  let f : Fin (2 ^ n) → IntermediateField.adjoin (ZMod 2) {g} := fun i => if i.val = 0 then 0 else ⟨g, hmem⟩ ^ (i.val - 1)
  have hf : Function.Injective f := by
    intro i j hij
    have hij' := congrArg (fun x : IntermediateField.adjoin (ZMod 2) {g} => (x : K)) hij
    simp only [f] at hij'
    ext
    have hi := i.isLt
    have hj := j.isLt
    by_cases h1 : i.val = 0 <;> by_cases h2 : j.val = 0
    · omega
    · rw [if_pos h1, if_neg h2] at hij'
      push_cast at hij'
      exact absurd hij'.symm (pow_ne_zero _ hg0)
    · rw [if_neg h1, if_pos h2] at hij'
      push_cast at hij'
      exact absurd hij' (pow_ne_zero _ hg0)
    · rw [if_neg h1, if_neg h2] at hij'
      push_cast at hij'
      have := pow_injOn_Iio_orderOf (x := g) (x₁ := i.val - 1) (x₂ := j.val - 1) (by simp [hg]; omega) (by simp [hg]; omega) hij'
      omega
  have hle := Fintype.card_le_of_injective f hf
  rw [Fintype.card_fin, hcard] at hle
  exact (Nat.pow_le_pow_iff_right (by omega)).1 hle

/-- the exponents of the default basis -/
def bexp (m j : Nat) : Nat := if j = m - 1 then 0 else j + 1

theorem indep_powers [Algebra (ZMod 2) K] {g : K} {n m : Nat} (hn : 0 < n) (hg : orderOf g = 2 ^ n - 1) (hm : m ≤ n) :
    Indep (fun j => g ^ bexp m j) m := by
  intro i hi h0 hz
  obtain ⟨hint, hdeg⟩ := degree_minpoly hn hg
  let Q : (ZMod 2)[X] := ∑ j ∈ range m, if i.testBit j then X ^ bexp m j else 0
  have hQg : aeval g Q = 0 := by
    rw [← hz]
    simp only [Q, span, map_sum]
    refine sum_congr rfl fun j _ => ?_
    split <;> simp
  have hinj : ∀ j j', j < m → j' < m → bexp m j = bexp m j' → j = j' := by
    intro j j' h1 h2 h
    unfold bexp at h
    split at h <;> split at h <;> omega
  obtain ⟨d, hd⟩ : ∃ d, i.testBit d = true := by
    by_contra hc
    push_neg at hc
    exact h0 (Nat.eq_of_testBit_eq fun j => by simpa using hc j)
  have hdm : d < m := by
    by_contra hc
    rw [Nat.testBit_lt_two_pow (lt_of_lt_of_le hi (Nat.pow_le_pow_right (by omega) (by omega)))] at hd
    exact absurd hd (by simp)
  have hcoef : Q.coeff (bexp m d) = 1 := by
    simp only [Q, finset_sum_coeff]
    rw [sum_eq_single d]
    · rw [if_pos hd, coeff_X_pow, if_pos rfl]
    · intro j hj hjd
      split
      · rw [coeff_X_pow, if_neg]
        exact fun h => hjd (hinj j d (mem_range.mp hj) hdm h.symm)
      · simp
    · intro h; exact absurd (mem_range.mpr hdm) h
  have hQ0 : Q ≠ 0 := fun h => by rw [h] at hcoef; simp at hcoef
  have hQd : Q.natDegree ≤ m - 1 := by
    refine natDegree_sum_le_of_forall_le _ _ fun j hj => ?_
    have := mem_range.mp hj
    split
    · rw [natDegree_X_pow]; unfold bexp; split <;> omega
    · simp
  have hle := natDegree_le_natDegree (minpoly.degree_le_of_ne_zero (ZMod 2) g hQ0 hQg)
  omega

theorem powerBasis_gt {g m j : Nat} (h : j < m) : gt (powerBasis F g m) j = if j = m - 1 then 1 else F.exp g (j + 1) := by
  unfold powerBasis; rw [gt_ofFn h]

theorem powerBasis_sem (hF : S.Full) {g m : Nat} (hg : S.V g) {j : Nat} (h : j < m) :
    S.V (gt (powerBasis F g m) j) ∧ S.φ (gt (powerBasis F g m) j) = S.φ g ^ bexp m j := by
  rw [powerBasis_gt h]
  unfold bexp
  split
  · exact ⟨hF.v1.1, by rw [hF.v1.2, pow_zero]⟩
  · exact S.exp hg

theorem defaultBetas_spec (hF : S.Full) {g m : Nat} (hg : S.V g) (hm : 1 ≤ m) (mem : Nat → Nat) :
    defaultBetas F g m mem = .ok (powerBasis F g m) := by
  have hps : (powerBasis F g m).size = m := by simp [powerBasis]
  have he1 : F.exp g 1 = g := hF.inj (S.exp hg).1 hg (by rw [(S.exp hg).2, pow_one])
  unfold defaultBetas
  rw [wr_ok (by simp; omega), ok_bind]
  obtain ⟨r, e, h1, h2⟩ := forN_inv (n := m - 2) (s := (fresh mem m).setIfInBounds 0 g) (f := fun s B => wr B (s + 1) (F.exp g (s + 2)))
    (I := fun s (B : Array Nat) => B.size = m ∧ ∀ j, j < s + 1 → gt B j = F.exp g (j + 1))
    ⟨by simp, fun j hj => by
      obtain rfl : j = 0 := by omega
      rw [gt_set (by simp; omega), if_pos rfl, zero_add, he1]⟩ (by
      rintro s B hs ⟨i1, i2⟩
      refine ⟨_, wr_ok (by omega), by simpa using i1, fun j hj => ?_⟩
      rw [gt_set (by omega)]
      split
      · rename_i h; rw [h]
      · exact i2 j (by omega))
  rw [e, ok_bind, wr_ok (by omega)]
  congr 1
  refine gt_ext (by simp [h1, hps]) fun j hj => ?_
  rw [size_set, h1] at hj
  rw [gt_set (by omega), powerBasis_gt hj]
  split
  · rfl
  · exact h2 j (by omega)

variable (S) in
/-- what the transform on a basis does -/
theorem basis_spec [CharP K 2] (hF : S.Full) (hadd : ∀ x y, F.add x y = x ^^^ y) {b : Nat} {basis : Array Nat}
    (h1 : 1 ≤ basis.size) (hb : basis.size < b) (hV : ∀ j, j < basis.size → S.V (gt basis j))
    (hI : Indep (fun j => S.φ (gt basis j)) basis.size) (mem : Nat → Nat) :
    ∃ Ls, mkB F b mem basis.size basis = .ok Ls ∧ (Ls.headD default).n = 2 ^ basis.size ∧
      (∀ B : Array Nat, B.size = 2 ^ basis.size → compute_B F b Ls B mem = .ok (Array.ofFn (n := 2 ^ basis.size) fun i => spanPoint basis i)) ∧
      (∀ out x : Array Nat, out.size = 2 ^ basis.size → x.size = 2 ^ basis.size → AllV S x →
        fft F b mem Ls out x = .ok (spanEvals F basis x)) ∧
      (∀ out x : Array Nat, out.size = 2 ^ basis.size → x.size = 2 ^ basis.size → AllV S x →
        ∃ y, fft_inv F mem Ls out x = .ok y ∧ y.size = 2 ^ basis.size ∧ AllV S y ∧ spanEvals F basis y = x) ∧
      (∀ out x : Array Nat, out.size = 2 ^ basis.size → x.size = 2 ^ basis.size → AllV S x →
        fft_inv F mem Ls out (spanEvals F basis x) = .ok x) ∧
      (∀ x, AllV S x → AllV S (spanEvals F basis x)) := by
  obtain ⟨m, hm⟩ : ∃ m, basis.size = m + 1 := ⟨basis.size - 1, by omega⟩
  have hsp := spanPoint_sem (S := S) hadd hV
  have hse : ∀ x, (spanEvals F basis x).size = 2 ^ basis.size := fun x => by simp [spanEvals]
  have hev : ∀ {x}, AllV S x → ∀ i, i < 2 ^ basis.size → S.V (gt (spanEvals F basis x) i) ∧
      S.φ (gt (spanEvals F basis x) i) = (polyOf S x).eval (span (fun j => S.φ (gt basis j)) basis.size i) := by
    intro x hx i hi
    unfold spanEvals
    rw [gt_ofFn hi, ← (hsp i).2]
    exact evalAt_sem hx (hsp i).1
  have hAV : ∀ x, AllV S x → AllV S (spanEvals F basis x) := by
    intro x hx i
    by_cases hi : i < 2 ^ basis.size
    · exact (hev hx i hi).1
    · rw [gt_oob (by rw [hse]; omega)]; exact S.zero.1
  obtain ⟨Ls, e, hC, L, Ls', hL, hLb⟩ := mkB_spec (S := S) hF hadd (b := b) mem m basis (fun j => S.φ (gt basis j)) hm (by omega)
    (fun i hi => ⟨hV i (by omega), rfl⟩) (by rw [← hm]; exact hI)
  rw [hm] at hI
  have hinv : ∀ out x : Array Nat, out.size = 2 ^ basis.size → x.size = 2 ^ basis.size → AllV S x →
        ∃ y, fft_inv F mem Ls out x = .ok y ∧ y.size = 2 ^ basis.size ∧ AllV S y ∧
          ∀ i, i < 2 ^ basis.size → (polyOf S y).eval (span (fun j => S.φ (gt basis j)) basis.size i) = S.φ (gt x i) := by
    intro out x ho hx hv
    rw [hm] at ho hx ⊢
    exact fft_inv_spec hF mem m Ls _ out x hC hI ho hx hv
  refine ⟨Ls, by rw [hm]; exact e, ?_, fun B hB => ?_, fun out x ho hx hv => ?_, fun out x ho hx hv => ?_, fun out x ho hx hv => ?_, hAV⟩
  · rw [hL] at hC ⊢
    unfold Chain at hC
    rw [hm]; exact hC.2.1
  · rw [hL]
    unfold compute_B
    simp only [hLb]
    obtain ⟨r, er, sr, hr⟩ := compute_subspace_spec (S := S) hadd (b := b) (dim := basis.size) (basis := basis) (sub := B) mem rfl hb hB hV
    rw [er]
    congr 1
    refine gt_ext (by simp [sr]) fun i hi => ?_
    rw [sr] at hi
    rw [gt_ofFn hi]
    exact hF.inj (hr i hi).1 (hsp i).1 (by rw [(hr i hi).2, (hsp i).2])
  · rw [hm] at ho hx
    obtain ⟨r, er, sr, vr, pr⟩ := fft_spec (S := S) hF (b := b) mem m Ls _ out x hC hI (by omega) ho hx hv
    rw [er]
    congr 1
    refine gt_ext (by rw [hse, hm, sr]) fun i hi => ?_
    rw [sr] at hi
    refine hF.inj (vr i) (hAV x hv i) ?_
    rw [pr i hi, (hev hv i (by rw [hm]; exact hi)).2, hm]
  · obtain ⟨y, ey, sy, vy, py⟩ := hinv out x ho hx hv
    refine ⟨y, ey, sy, vy, gt_ext (by rw [hse, hx]) fun i hi => ?_⟩
    rw [hse] at hi
    refine hF.inj (hAV y vy i) (hv i) ?_
    rw [(hev vy i hi).2, py i hi]
  · obtain ⟨y, ey, sy, vy, py⟩ := hinv out (spanEvals F basis x) ho (hse x) (hAV x hv)
    rw [ey]
    congr 1
    have hpoly : polyOf S y = polyOf S x := by
      have hdeg : ∀ {z : Array Nat}, z.size = 2 ^ basis.size → (polyOf S z).degree < (2 ^ basis.size : Nat) := by
        intro z hz
        rw [degree_lt_iff_coeff_zero]
        intro k hk
        rw [polyOf_coeff, gt_oob (by rw [hz]; exact hk), S.zero.2]
      refine eq_of_degrees_lt_of_eval_index_eq (s := range (2 ^ basis.size)) (v := fun i => span (fun j => S.φ (gt basis j)) basis.size i)
        ?_ (by rw [card_range]; exact hdeg sy) (by rw [card_range]; exact hdeg hx) ?_
      · intro i hi j hj hij
        rw [← hm] at hI
        exact span_inj hI (by simpa using hi) (by simpa using hj) hij
      · intro i hi
        have hi' := mem_range.mp hi
        rw [py i hi', (hev hv i hi').2]
    refine gt_ext (by rw [sy, hx]) fun i _ => hF.inj (vy i) (hv i) ?_
    rw [← polyOf_coeff, ← polyOf_coeff, hpoly]

/-! ### Taylor expansions in the field of the words -/

theorem tPoly_sum {t : Nat} (ht : 0 < t) (c : Nat → K) (M : Nat) :
    tPoly t c (t * M) = ∑ i ∈ range M, (∑ j ∈ range t, C (c (t * i + j)) * X ^ j) * (X ^ t - X) ^ i := by
  induction M with
  | zero => simp [tPoly]
  | succ M ih =>
    rw [show t * (M + 1) = t * M + t by ring, tPoly_add ht, ih, sum_range_succ, tPoly_small _ le_rfl, mul_comm]
    rfl

theorem tPoly_sum2 (g0 g1 : Array Nat) (M : Nat) :
    tPoly 2 (fun i => S.φ (il g0 g1 i)) (2 * M) = ∑ i ∈ range M, (C (S.φ (gt g0 i)) + C (S.φ (gt g1 i)) * X) * (X ^ 2 - X) ^ i := by
  rw [tPoly_sum (by omega)]
  refine sum_congr rfl fun i _ => ?_
  congr 1
  simp only [sum_range_succ, sum_range_zero, il]
  rw [if_pos (by omega), if_neg (by omega), show (2 * i + 0) / 2 = i by omega, show (2 * i + 1) / 2 = i by omega]
  simp

section Words
variable {P : (ZMod 2)[X]} [Fact (Irreducible P)] {F : GF} [F.Plain] {S : F.Sim (AdjoinRoot P)} {n : Nat}

theorem polyOfWords_eq {a : Array Nat} (h : ∀ i, i < a.size → S.φ (gt a i) = elemOf P n (gt a i)) : polyOfWords P n a = polyOf S a := by
  unfold polyOfWords polyOf
  exact sum_congr rfl fun i hi => by rw [h i (mem_range.mp hi)]

theorem taylorSum_eq {a : Array Nat} {t M : Nat} (ht : 0 < t) (h : ∀ i, S.φ (gt a i) = elemOf P n (gt a i)) :
    taylorSum P n t M a = tPoly t (fun i => S.φ (gt a i)) (t * M) := by
  rw [tPoly_sum ht]
  unfold taylorSum
  exact sum_congr rfl fun i _ => by simp only [h]

theorem taylorSum2_eq {u v : Array Nat} {M : Nat} (hu : ∀ i, i < M → S.φ (gt u i) = elemOf P n (gt u i))
    (hv : ∀ i, i < M → S.φ (gt v i) = elemOf P n (gt v i)) :
    taylorSum2 P n M u v = tPoly 2 (fun i => S.φ (il u v i)) (2 * M) := by
  rw [tPoly_sum2]
  unfold taylorSum2
  exact sum_congr rfl fun i hi => by rw [hu i (mem_range.mp hi), hv i (mem_range.mp hi)]

end Words

end Additive
end Quad
