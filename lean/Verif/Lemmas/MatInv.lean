import Verif.Lemmas.Matrix
import Mathlib.LinearAlgebra.Matrix.NonsingularInverse
import Mathlib.LinearAlgebra.Dimension.Constructions
import Mathlib.LinearAlgebra.FiniteDimensional.Lemmas

/-!
# Gauss-Jordan elimination: `reduced_row_echelon_form` and `inv`
-/

namespace Quad

/-- a field object in which 1 is the word 1 and every nonzero element can be inverted -/
structure GF.Sim.Full {F : GF} {K : Type} [Field K] (S : F.Sim K) : Prop where
  inj : S.Inj
  unit : F.unit = 1
  u : ∀ {a}, S.V a → S.φ a ≠ 0 → S.U a
  mulC : ∀ {a c}, S.V a → S.V c → F.mulC a c = .ok (F.mul a c)
  expC : ∀ {a} e, S.V a → F.expC a e = .ok (F.exp a e)

namespace GF.Sim.Full
variable {F : GF} {K : Type} [Field K] {S : F.Sim K} (H : S.Full)
include H

theorem v1 : S.V 1 ∧ S.φ 1 = 1 := by have := S.one; rwa [H.unit] at this
theorem eq_zero {a : Nat} (h : S.V a) : S.φ a = 0 ↔ a = 0 :=
  ⟨fun e => H.inj h S.zero.1 (e.trans S.zero.2.symm), fun e => e ▸ S.zero.2⟩
theorem eq_one {a : Nat} (h : S.V a) : S.φ a = 1 ↔ a = 1 :=
  ⟨fun e => H.inj h H.v1.1 (e.trans H.v1.2.symm), fun e => e ▸ H.v1.2⟩
end GF.Sim.Full

namespace Mat
variable {K : Type} [Field K]

/-- the span of the rows of an `R` by `C` matrix -/
def rowSpan (R C : Nat) (g : Nat → Nat → K) : Submodule K (Fin C → K) :=
  Submodule.span K (Set.range fun (i : Fin R) (j : Fin C) => g i j)

theorem row_mem {R C : Nat} {g : Nat → Nat → K} {i : Nat} (hi : i < R) : (fun j : Fin C => g i j) ∈ rowSpan R C g :=
  Submodule.subset_span ⟨⟨i, hi⟩, rfl⟩

theorem rowSpan_le {R C : Nat} {g g' : Nat → Nat → K} (h : ∀ i, i < R → (fun j : Fin C => g i j) ∈ rowSpan R C g') :
    rowSpan R C g ≤ rowSpan R C g' := by
  unfold rowSpan at *
  rw [Submodule.span_le]
  rintro _ ⟨i, rfl⟩
  exact h i.1 i.2

theorem rowSpan_congr {R C : Nat} {g g' : Nat → Nat → K} (h : ∀ i j, i < R → j < C → g i j = g' i j) :
    rowSpan R C g = rowSpan R C g' := by
  unfold rowSpan
  congr 2
  funext i j
  exact h i j i.2 j.2

theorem rowSpan_swap {R C r0 r1 : Nat} (h0 : r0 < R) (h1 : r1 < R) (g : Nat → Nat → K) :
    rowSpan R C (fun i j => if i = r1 then g r0 j else if i = r0 then g r1 j else g i j) = rowSpan R C g := by
  refine le_antisymm (rowSpan_le fun i hi => ?_) (rowSpan_le fun i hi => ?_)
  · by_cases a : i = r1
    · simpa only [a, if_true] using row_mem h0
    · by_cases b : i = r0
      · have := row_mem (C := C) (g := g) h1
        simpa only [if_neg a, if_pos b] using this
      · simpa only [a, b, if_false] using row_mem hi
  · by_cases a : i = r1
    · have := row_mem (C := C) (g := fun i j => if i = r1 then g r0 j else if i = r0 then g r1 j else g i j) h0
      by_cases b : r0 = r1
      · subst b a; simpa only [if_true] using this
      · subst a; simpa only [b, if_false, if_true] using this
    · by_cases b : i = r0
      · have := row_mem (C := C) (g := fun i j => if i = r1 then g r0 j else if i = r0 then g r1 j else g i j) h1
        simpa only [if_true, ← b] using this
      · have := row_mem (C := C) (g := fun i j => if i = r1 then g r0 j else if i = r0 then g r1 j else g i j) hi
        simpa only [a, b, if_false] using this

theorem rowSpan_mul {R C r : Nat} (h0 : r < R) {x : K} (hx : x ≠ 0) (g : Nat → Nat → K) :
    rowSpan R C (fun i j => if i = r then g r j * x else g i j) = rowSpan R C g := by
  refine le_antisymm (rowSpan_le fun i hi => ?_) (rowSpan_le fun i hi => ?_)
  · by_cases a : i = r
    · have := Submodule.smul_mem _ x (row_mem (C := C) (g := g) h0)
      simp only [a, if_true]
      convert this using 1
      funext j
      exact mul_comm _ _
    · simpa only [a, if_false] using row_mem hi
  · have := row_mem (C := C) (g := fun i j => if i = r then g r j * x else g i j) hi
    by_cases a : i = r
    · have := Submodule.smul_mem _ x⁻¹ this
      simp only [a, if_true] at this ⊢
      convert this using 1
      funext j
      simp only [Pi.smul_apply, smul_eq_mul]
      field_simp
    · simpa only [a, if_false] using this

theorem rowSpan_add {R C s d : Nat} (h0 : s < R) (h1 : d < R) (hne : s ≠ d) (x : K) (g : Nat → Nat → K) :
    rowSpan R C (fun i j => if i = d then g d j + g s j * x else g i j) = rowSpan R C g := by
  refine le_antisymm (rowSpan_le fun i hi => ?_) (rowSpan_le fun i hi => ?_)
  · by_cases a : i = d
    · have := Submodule.add_mem _ (row_mem (C := C) (g := g) h1) (Submodule.smul_mem _ x (row_mem (C := C) (g := g) h0))
      simp only [a, if_true]
      convert this using 1
      funext j
      simp only [Pi.add_apply, Pi.smul_apply, smul_eq_mul, mul_comm]
    · simpa only [a, if_false] using row_mem hi
  · have hi' := row_mem (C := C) (g := fun i j => if i = d then g d j + g s j * x else g i j) hi
    have hs := row_mem (C := C) (g := fun i j => if i = d then g d j + g s j * x else g i j) h0
    by_cases a : i = d
    · have := Submodule.sub_mem _ hi' (Submodule.smul_mem _ x hs)
      simp only [a, hne, if_true, if_false] at this ⊢
      convert this using 1
      funext j
      simp only [Pi.sub_apply, Pi.smul_apply, smul_eq_mul]
      ring
    · simpa only [a, if_false] using hi'

/-- the matrix has entries `f`, valid, whose rows span `W` -/
structure St {F : GF} (S : F.Sim K) (R C : Nat) (W : Submodule K (Fin C → K)) (M : Mat) (f : Nat → Nat → Nat) : Prop where
  is : Is M R C f
  v : ∀ i j, i < R → j < C → S.V (f i j)
  span : rowSpan R C (fun i j => S.φ (f i j)) = W

variable {F : GF} {S : F.Sim K} {R C : Nat} {W : Submodule K (Fin C → K)} {M : Mat} {f : Nat → Nat → Nat}

theorem St.swap_rows (h : St S R C W M f) {r0 r1 : Nat} (h0 : r0 < R) (h1 : r1 < R) :
    ∃ M', M.swap_rows r0 r1 = .ok M' ∧
      St S R C W M' (fun i j => if i = r1 then f r0 j else if i = r0 then f r1 j else f i j) := by
  obtain ⟨M', e, i⟩ := h.is.swap_rows h0 h1
  refine ⟨M', e, i, fun a c ha hc => ?_, ?_⟩
  · split
    · exact h.v _ _ h0 hc
    · split
      · exact h.v _ _ h1 hc
      · exact h.v _ _ ha hc
  · rw [← h.span, ← rowSpan_swap h0 h1 (fun i j => S.φ (f i j))]
    refine rowSpan_congr fun a c _ _ => ?_
    split
    · rfl
    · split <;> rfl

theorem St.mul_row (h : St S R C W M f) {r : Nat} (h0 : r < R) {x : Nat} (hx : S.V x) (hx0 : S.φ x ≠ 0) :
    ∃ M', M.mul_row F r x = .ok M' ∧ St S R C W M' (fun i j => if i = r then F.mul (f r j) x else f i j) := by
  obtain ⟨M', e, i⟩ := h.is.mul_row F h0 x
  refine ⟨M', e, i, fun a c ha hc => ?_, ?_⟩
  · split
    · exact (S.mul (h.v _ _ h0 hc) hx).1
    · exact h.v _ _ ha hc
  · rw [← h.span, ← rowSpan_mul h0 hx0 (fun i j => S.φ (f i j))]
    refine rowSpan_congr fun a c _ hc => ?_
    split
    · exact (S.mul (h.v _ _ h0 hc) hx).2
    · rfl

theorem St.add_rows (h : St S R C W M f) {s d : Nat} (h0 : s < R) (h1 : d < R) (hne : s ≠ d) {x : Nat} (hx : S.V x) :
    ∃ M', M.add_rows F s d x = .ok M' ∧
      St S R C W M' (fun i j => if i = d then F.add (f d j) (F.mul (f s j) x) else f i j) := by
  obtain ⟨M', e, i⟩ := h.is.add_rows F h0 h1 hne x
  have hv : ∀ c, c < C → S.V (F.add (f d c) (F.mul (f s c) x)) ∧
      S.φ (F.add (f d c) (F.mul (f s c) x)) = S.φ (f d c) + S.φ (f s c) * S.φ x := fun c hc => by
    have hm := S.mul (h.v _ _ h0 hc) hx
    have ha := S.add (h.v _ _ h1 hc) hm.1
    exact ⟨ha.1, by rw [ha.2, hm.2]⟩
  refine ⟨M', e, i, fun a c ha hc => ?_, ?_⟩
  · split
    · exact (hv c hc).1
    · exact h.v _ _ ha hc
  · rw [← h.span, ← rowSpan_add h0 h1 hne (S.φ x) (fun i j => S.φ (f i j))]
    refine rowSpan_congr fun a c _ hc => ?_
    split
    · exact (hv c hc).2
    · rfl

/-- one column of the first phase -/
theorem St.refStep (H : S.Full) (h : St S R C W M f) {j p : Nat} (hj : j < C) (hp : p < R) :
    ((∀ i, p ≤ i → i < R → f i j = 0) ∧ refStep F j (M, p) = .ok (M, p)) ∨
    ∃ M' f', Mat.refStep F j (M, p) = .ok (M', p + 1) ∧ St S R C W M' f' ∧ f' p j = 1 ∧
      (∀ i, p < i → i < R → f' i j = 0) ∧ (∀ i c, i < p → f' i c = f i c) ∧
      (∀ c, c < C → (∀ i, p ≤ i → i < R → f i c = 0) → ∀ i, p ≤ i → i < R → f' i c = 0) := by
  unfold Mat.refStep
  simp only
  rw [h.is.rows, if_pos hp]
  obtain ⟨q, e, h1, h2, h3, h4⟩ := h.is.findRow hj (R - p) (by omega)
  rw [e]
  simp only [ok_bind]
  by_cases hq : q = R
  · left
    rw [if_pos hq]
    exact ⟨fun i hi hR => h3 i (by omega) (by omega), rfl⟩
  · right
    rw [if_neg hq]
    have hqR : q < R := by omega
    obtain ⟨M1, e1, s1⟩ := h.swap_rows hp hqR
    set f1 : Nat → Nat → Nat := fun i j => if i = q then f p j else if i = p then f q j else f i j with hf1
    rw [e1]
    simp only [ok_bind]
    rw [s1.is.get hp hj]
    simp only [ok_bind]
    have hpj : f1 p j = f q j := by
      simp only [hf1]
      by_cases a : p = q
      · subst a; simp
      · simp [a]
    have hne : S.φ (f1 p j) ≠ 0 := fun c => h4 hqR (hpj ▸ (H.eq_zero (s1.v p j hp hj)).mp c)
    obtain ⟨y, ey, hy, hyφ⟩ := S.div H.v1.1 (s1.v p j hp hj) (H.u (s1.v p j hp hj) hne)
    rw [H.v1.2] at hyφ
    rw [ey]
    simp only [ok_bind]
    obtain ⟨M2, e2, s2⟩ := s1.mul_row hp hy (by rw [hyφ]; exact one_div_ne_zero hne)
    set f2 : Nat → Nat → Nat := fun i c => if i = p then F.mul (f1 p c) y else f1 i c with hf2
    rw [e2]
    simp only [ok_bind]
    have h2pj : S.φ (f2 p j) = 1 := by
      simp only [hf2, if_true]
      rw [(S.mul (s1.v p j hp hj) hy).2, hyφ]
      field_simp
    have h2lt : ∀ i c, i < p → f2 i c = f i c := fun i c hi => by
      simp only [hf2, hf1, if_neg (show i ≠ p by omega), if_neg (show i ≠ q by omega)]
    have h2z : ∀ c, c < C → (∀ i, p ≤ i → i < R → f i c = 0) → ∀ i, p ≤ i → i < R → f2 i c = 0 := by
      intro c hc hz i hi hiR
      have h1z : ∀ i, p ≤ i → i < R → f1 i c = 0 := by
        intro i hi hiR
        simp only [hf1]
        split
        · exact hz p le_rfl hp
        · split
          · exact hz q (by omega) hqR
          · exact hz i hi hiR
      simp only [hf2]
      split
      · have hv := S.mul (s1.v p c hp hc) hy
        rw [← H.eq_zero hv.1, hv.2, h1z p le_rfl hp, S.zero.2, zero_mul]
      · exact h1z i hi hiR
    rw [s2.is.rows]
    obtain ⟨M3, e3, f3, s3, g1, g2, g3, g4⟩ := forStep_inv (a := p + 1) (b := R) (st := 1) (s := M2)
      (f := fun i M => do
        let x ← M.get i j
        M.add_rows F p i (F.neg x))
      (I := fun k M' => ∃ f', St S R C W M' f' ∧ f' p j = f2 p j ∧ (∀ i, p < i → i < p + 1 + k → i < R → f' i j = 0) ∧
        (∀ i c, i ≤ p → f' i c = f2 i c) ∧
        (∀ c, c < C → (∀ i, p ≤ i → i < R → f2 i c = 0) → ∀ i, p ≤ i → i < R → f' i c = 0)) (by omega)
      ⟨f2, s2, rfl, fun i hi hi' => by omega, fun _ _ _ => rfl, fun c hc hz => hz⟩ (by
        rintro k s hk ⟨f', s', g1, g2, g3, g4⟩
        simp only [mul_one] at hk ⊢
        rw [s'.is.get hk hj]
        simp only [ok_bind]
        have hn := S.neg (s'.v _ _ hk hj)
        obtain ⟨M'', e'', s''⟩ := s'.add_rows hp hk (by omega) hn.1
        refine ⟨M'', e'', _, s'', ?_, ?_, ?_, ?_⟩
        · rw [if_neg (by omega)]; exact g1
        · intro i hi hi' hiR
          by_cases a : i = p + 1 + k
          · rw [if_pos a]
            have hm := S.mul (s'.v p j hp hj) hn.1
            have ha := S.add (s'.v _ j hk hj) hm.1
            rw [← H.eq_zero ha.1, ha.2, hm.2, hn.2, g1, h2pj]
            ring
          · rw [if_neg a]; exact g2 i hi (by omega) hiR
        · intro i c hi
          rw [if_neg (by omega)]; exact g3 i c hi
        · intro c hc hz i hi hiR
          split
          · have hm := S.mul (s'.v p c hp hc) hn.1
            have ha := S.add (s'.v _ c hk hc) hm.1
            rw [← H.eq_zero ha.1, ha.2, hm.2, g4 c hc hz _ (by omega) hk, g4 c hc hz p le_rfl hp, S.zero.2]
            ring
          · exact g4 c hc hz i hi hiR)
    rw [e3]
    refine ⟨M3, f3, rfl, s3, ?_, ?_, ?_, ?_⟩
    · rw [← H.eq_one (s3.v p j hp hj), g1]; exact h2pj
    · intro i hi hiR
      have : stride (p + 1) R 1 = R - (p + 1) := by unfold stride; simp
      exact g2 i hi (by omega) hiR
    · intro i c hi; rw [g3 i c (by omega), h2lt i c hi]
    · intro c hc hz; exact g4 c hc (h2z c hc hz)

/-- one row of the second phase -/
theorem St.rrefStep (H : S.Full) (h : St S R C W M f) {i : Nat} (hi : i < R) :
    ∃ M' f', Mat.rrefStep F i M = .ok M' ∧ St S R C W M' f' ∧ (∀ r c, i ≤ r → f' r c = f r c) ∧
      ∀ q, q < C → f i q ≠ 0 → (∀ c, c < q → f i c = 0) → ∀ r c, r < i → c < C →
        S.φ (f' r c) = S.φ (f r c) - S.φ (f i c) * S.φ (f r q) := by
  unfold Mat.rrefStep
  rw [h.is.cols]
  obtain ⟨q, e, h1, h2, h3, h4⟩ := h.is.findCol hi C le_rfl
  rw [e]
  simp only [ok_bind]
  by_cases hq : q = C
  · rw [if_pos hq]
    exact ⟨M, f, rfl, h, fun _ _ _ => rfl, fun q' hq' hne _ => absurd (h3 q' (by omega) (by omega)) hne⟩
  · rw [if_neg hq]
    have hqC : q < C := by omega
    obtain ⟨M', e', f', s', g1, g2, g3⟩ := forN_inv (n := i) (s := M)
      (f := fun t M => do
        let x ← M.get (i - 1 - t) q
        M.add_rows F i (i - 1 - t) (F.neg x))
      (I := fun k M' => ∃ f', St S R C W M' f' ∧ (∀ r c, i ≤ r → f' r c = f r c) ∧
        (∀ r c, r < i - k → f' r c = f r c) ∧
        ∀ r c, i - k ≤ r → r < i → c < C → S.φ (f' r c) = S.φ (f r c) - S.φ (f i c) * S.φ (f r q))
      ⟨f, h, fun _ _ _ => rfl, fun _ _ _ => rfl, fun r c h1 h2 => by omega⟩ (by
        rintro k s hk ⟨f', s', g1, g2, g3⟩
        rw [s'.is.get (by omega) hqC]
        simp only [ok_bind]
        have hn := S.neg (s'.v (i - 1 - k) q (by omega) hqC)
        obtain ⟨M'', e'', s''⟩ := s'.add_rows hi (show i - 1 - k < R by omega) (by omega) hn.1
        refine ⟨M'', e'', _, s'', ?_, ?_, ?_⟩
        · intro r c hr; rw [if_neg (by omega)]; exact g1 r c hr
        · intro r c hr; rw [if_neg (by omega)]; exact g2 r c (by omega)
        · intro r c hr hr' hc
          by_cases a : r = i - 1 - k
          · rw [if_pos a]
            have hm := S.mul (s'.v i c hi hc) hn.1
            have ha := S.add (s'.v (i - 1 - k) c (by omega) hc) hm.1
            rw [ha.2, hm.2, hn.2, g1 i c le_rfl, g2 (i - 1 - k) c (by omega), g2 (i - 1 - k) q (by omega), a]
            ring
          · rw [if_neg a]; exact g3 r c (by omega) hr' hc)
    refine ⟨M', f', e', s', g1, ?_⟩
    intro q' hq' hne hz r c hr hc
    have : q' = q := by
      rcases Nat.lt_trichotomy q' q with a | a | a
      · exact absurd (h3 q' (by omega) a) hne
      · exact a
      · exact absurd (hz q a) (h4 hqC)
    rw [this]
    exact g3 r c (by omega) hr hc

/-- the leading columns of a nonsingular matrix cannot all vanish below row `k` -/
theorem exists_pivot {n k : Nat} (hk : k < n) (hnC : n ≤ C) {g : Nat → Nat → K}
    (hns : ∀ w : Fin C → K, (∀ c : Fin C, n ≤ c.1 → w c = 0) → (∀ i, i < n → ∑ c : Fin C, g i c * w c = 0) → w = 0)
    (hz : ∀ i c, k ≤ i → i < n → c ≤ k → g i c = 0) : False := by
  let L : (Fin (k + 1) → K) →ₗ[K] (Fin k → K) :=
    { toFun := fun v i => ∑ c : Fin (k + 1), g i c * v c
      map_add' := fun v w => by funext i; simp [mul_add, Finset.sum_add_distrib]
      map_smul' := fun a v => by
        funext i
        simp only [Pi.smul_apply, smul_eq_mul, RingHom.id_apply, Finset.mul_sum]
        exact Finset.sum_congr rfl fun c _ => by ring }
  have hker : LinearMap.ker L ≠ ⊥ := by
    apply LinearMap.ker_ne_bot_of_finrank_lt
    simp
  obtain ⟨v, hv, hv0⟩ := (Submodule.ne_bot_iff _).mp hker
  have hv : L v = 0 := hv
  let v' : Nat → K := fun c => if h : c < k + 1 then v ⟨c, h⟩ else 0
  have hv'0 : ∀ c, ¬ c < k + 1 → v' c = 0 := fun c h => by simp only [v', dif_neg h]
  have hv' : ∀ c : Fin (k + 1), v' c = v c := fun c => by simp only [v', dif_pos c.2]
  have hsum : ∀ i, ∑ c : Fin C, g i c * v' c = ∑ c : Fin (k + 1), g i c * v c := by
    intro i
    rw [Fin.sum_univ_eq_sum_range (fun c => g i c * v' c) C,
      Finset.sum_congr rfl (fun (c : Fin (k + 1)) _ => show g i c * v c = g i c * v' c by rw [hv']),
      Fin.sum_univ_eq_sum_range (fun c => g i c * v' c) (k + 1)]
    refine (Finset.sum_subset (fun c hc => ?_) fun c _ hc => ?_).symm
    · simp only [Finset.mem_range] at hc ⊢; omega
    · simp only [Finset.mem_range] at hc
      rw [hv'0 c hc, mul_zero]
  have hw := hns (fun c => v' c) (fun c hc => hv'0 _ (by omega)) (fun i hi => by
    rw [hsum i]
    by_cases a : i < k
    · exact congrFun hv ⟨i, a⟩
    · exact Finset.sum_eq_zero fun c _ => by rw [hz i c (by omega) hi (by have := c.2; omega), zero_mul])
  apply hv0
  funext c
  have h1 := congrFun hw ⟨c.1, by have := c.2; omega⟩
  simp only [Pi.zero_apply] at h1 ⊢
  rw [← hv' c]
  exact h1

/-- Gauss-Jordan elimination always ends, keeps the row space, and brings a matrix whose first
`R` columns are independent to the form `[I | *]` -/
theorem St.rref (H : S.Full) (h : St S R C W M f) (hRC : R ≤ C) :
    ∃ M' f', Mat.reduced_row_echelon_form F M = .ok M' ∧ St S R C W M' f' ∧
      ((∀ w : Fin C → K, (∀ c : Fin C, R ≤ c.1 → w c = 0) → (∀ x ∈ W, ∑ c : Fin C, x c * w c = 0) → w = 0) →
        ∀ i j, i < R → j < R → f' i j = if i = j then 1 else 0) := by
  unfold Mat.reduced_row_echelon_form
  rw [h.is.cols]
  set NS := ∀ w : Fin C → K, (∀ c : Fin C, R ≤ c.1 → w c = 0) → (∀ x ∈ W, ∑ c : Fin C, x c * w c = 0) → w = 0 with hNS
  obtain ⟨⟨M1, p⟩, e1, f1, s1, hp, ht⟩ := forN_inv (n := C) (s := (M, 0)) (f := fun j s => Mat.refStep F j s)
    (I := fun k s => ∃ f', St S R C W s.1 f' ∧ s.2 ≤ R ∧ (NS → s.2 = min k R ∧
      ∀ c, c < min k R → f' c c = 1 ∧ ∀ i, c < i → i < R → f' i c = 0))
    ⟨f, h, by simp, fun _ => ⟨by simp, fun c hc => by omega⟩⟩ (by
      rintro k ⟨M', p⟩ hk ⟨f', s', hp, ht⟩
      simp only at s' hp ht
      by_cases hpR : p < R
      · rcases s'.refStep H hk hpR with ⟨hz, e⟩ | ⟨M'', f'', e, s'', g1, g2, g3, g4⟩
        · refine ⟨_, e, f', s', hp, fun hns => ?_⟩
          exfalso
          obtain ⟨q1, q2⟩ := ht hns
          have hkR : k < R := by omega
          have hpk : p = k := by omega
          refine exists_pivot (C := C) hkR hRC (g := fun i j => S.φ (f' i j)) (fun w hw hs => hns w hw ?_) ?_
          · intro x hx
            rw [← s'.span] at hx
            unfold rowSpan at hx
            induction hx using Submodule.span_induction with
            | mem x hx =>
              obtain ⟨i, rfl⟩ := hx
              exact hs i.1 i.2
            | zero => simp
            | add x y _ _ hx hy => simp [add_mul, Finset.sum_add_distrib, hx, hy]
            | smul a x _ hx =>
              simp only [Pi.smul_apply, smul_eq_mul, mul_assoc]
              rw [← Finset.mul_sum, hx, mul_zero]
          · intro i c hi hiR hc
            have : f' i c = 0 := by
              by_cases a : c = k
              · rw [a]; exact hz i (by omega) hiR
              · exact (q2 c (by omega)).2 i (by omega) hiR
            simp only [this, S.zero.2]
        · refine ⟨_, e, f'', s'', by simp only; omega, fun hns => ?_⟩
          obtain ⟨q1, q2⟩ := ht hns
          have hkR : k < R := by omega
          have hpk : p = k := by omega
          subst hpk
          refine ⟨by simp only; omega, fun c hc => ?_⟩
          by_cases a : c = p
          · subst a; exact ⟨g1, g2⟩
          · have hc' : c < p := by omega
            obtain ⟨r1, r2⟩ := q2 c (by omega)
            refine ⟨by rw [g3 c c hc']; exact r1, fun i hi hiR => ?_⟩
            by_cases b : i < p
            · rw [g3 i c b]; exact r2 i hi hiR
            · exact g4 c (by omega) (fun i h1 h2 => r2 i (by omega) h2) i (by omega) hiR
      · refine ⟨(M', p), ?_, f', s', hp, fun hns => ?_⟩
        · unfold Mat.refStep
          simp only
          rw [s'.is.rows, if_neg hpR]; rfl
        · obtain ⟨q1, q2⟩ := ht hns
          have : min (k + 1) R = min k R := by omega
          rw [this]
          exact ⟨q1, q2⟩)
  rw [e1]
  simp only [ok_bind]
  simp only at s1 hp ht
  obtain ⟨M2, e2, f2, s2, h2⟩ := forN_inv (n := p) (s := M1) (f := fun t M => Mat.rrefStep F (p - 1 - t) M)
    (I := fun k M' => ∃ f', St S R C W M' f' ∧ (NS → p = R ∧
      (∀ c, c < R → f' c c = 1 ∧ ∀ i, c < i → i < R → f' i c = 0) ∧
      ∀ c i, p - k ≤ c → c < R → i < c → f' i c = 0))
    ⟨f1, s1, fun hns => by
      obtain ⟨q1, q2⟩ := ht hns
      have hm : min C R = R := by omega
      rw [hm] at q1 q2
      exact ⟨q1, q2, fun c i h1 h2 h3 => by omega⟩⟩ (by
      rintro k M' hk ⟨f', s', ht⟩
      obtain ⟨M'', f'', e, s'', g1, g2⟩ := s'.rrefStep H (show p - 1 - k < R by omega)
      refine ⟨M'', e, f'', s'', fun hns => ?_⟩
      obtain ⟨hpR, q1, q2⟩ := ht hns
      set i := p - 1 - k with hi
      have hiR : i < R := by omega
      have hii := (q1 i hiR).1
      have key := g2 i (by omega) (by rw [hii]; exact one_ne_zero) (fun c hc => (q1 c (by omega)).2 i hc hiR)
      have hrow : ∀ c, c < R → c ≠ i → f' i c = 0 := by
        intro c hc hne
        by_cases a : c < i
        · exact (q1 c hc).2 i a hiR
        · exact q2 c i (by omega) hc (by omega)
      have hother : ∀ r c, r < R → c < R → c ≠ i → f'' r c = f' r c := by
        intro r c hr hc hne
        by_cases a : r < i
        · refine H.inj (s''.v r c hr (by omega)) (s'.v r c hr (by omega)) ?_
          rw [key r c a (by omega), hrow c hc hne, S.zero.2]; ring
        · exact g1 r c (by omega)
      have hcol : ∀ r, r < i → f'' r i = 0 := by
        intro r hr
        rw [← H.eq_zero (s''.v r i (by omega) (by omega)), key r i hr (by omega), hii, H.v1.2]; ring
      refine ⟨hpR, fun c hc => ?_, fun c r h1 h2 h3 => ?_⟩
      · by_cases a : c = i
        · subst a
          exact ⟨by rw [g1 _ _ le_rfl]; exact hii, fun r h1 h2 => by rw [g1 _ _ (by omega)]; exact (q1 _ hc).2 r h1 h2⟩
        · refine ⟨by rw [hother c c hc hc a]; exact (q1 c hc).1, fun r h1 h2 => ?_⟩
          rw [hother r c h2 hc a]; exact (q1 c hc).2 r h1 h2
      · by_cases a : c = i
        · subst a; exact hcol r h3
        · rw [hother r c (by omega) h2 a]
          exact q2 c r (by omega) h2 h3)
  refine ⟨M2, f2, e2, s2, fun hns => ?_⟩
  obtain ⟨hpR, q1, q2⟩ := h2 hns
  intro i j hi hj
  by_cases a : i = j
  · subst a; rw [if_pos rfl]; exact (q1 i hi).1
  · rw [if_neg a]
    by_cases b : i < j
    · exact q2 j i (by omega) hj b
    · exact (q1 j hj).2 i (by omega) hi

/-- a loop of checks that throw the same exception -/
theorem forN_check {n : Nat} {f : Nat → Unit → Res Unit} {P : Nat → Prop} {e : Err}
    (h1 : ∀ i, i < n → P i → f i () = .ok ()) (h2 : ∀ i, i < n → ¬ P i → f i () = .error e) :
    ((∀ i, i < n → P i) ∧ forN n () f = .ok ()) ∨ ((∃ i, i < n ∧ ¬ P i) ∧ forN n () f = .error e) := by
  induction n with
  | zero => left; exact ⟨fun i hi => by omega, rfl⟩
  | succ n ih =>
    rcases ih (fun i hi => h1 i (by omega)) (fun i hi => h2 i (by omega)) with ⟨h, he⟩ | ⟨⟨i, hi, hP⟩, he⟩
    · by_cases hn : P n
      · left
        refine ⟨fun i hi => ?_, ?_⟩
        · by_cases a : i = n
          · rw [a]; exact hn
          · exact h i (by omega)
        · rw [forN, he]; exact h1 n (by omega) hn
      · right
        exact ⟨⟨n, by omega, hn⟩, by rw [forN, he]; exact h2 n (by omega) hn⟩
    · right
      exact ⟨⟨i, by omega, hP⟩, by rw [forN, he]; rfl⟩

/-- the square matrix of elements a table of words stands for -/
def toM {F : GF} (S : F.Sim K) (n : Nat) (f : Nat → Nat → Nat) : Matrix (Fin n) (Fin n) K :=
  Matrix.of fun i j => S.φ (f i j)

/-- `inv`: the inverse when there is one, `DomainError` otherwise -/
theorem inv_spec (H : S.Full) {n : Nat} (h : Is M n n f) (hv : ∀ i j, i < n → j < n → S.V (f i j)) (mem : Nat → Nat) :
    (IsUnit (toM S n f).det → ∃ M' f', Mat.inv F M mem = .ok M' ∧ Is M' n n f' ∧ (∀ i j, i < n → j < n → S.V (f' i j)) ∧
      toM S n f' = (toM S n f)⁻¹) ∧
    (¬ IsUnit (toM S n f).det → Mat.inv F M mem = .error (.throws .domainError)) := by
  unfold Mat.inv cassert
  rw [h.rows, h.cols]
  simp only [decide_true, if_true, ok_bind]
  -- the augmented matrix
  let f0 : Nat → Nat → Nat := fun i j => if j < n then f i j else if i = j - n then 1 else 0
  obtain ⟨T0, e0, i0⟩ : ∃ T0, forN n (Mat.mk' n (n * 2) mem) (fun i tmp => forN n tmp (fun j tmp => do
      let x ← M.get i j
      let tmp ← tmp.set i j x
      tmp.set i (j + n) (if i = j then 1 else 0))) = .ok T0 ∧ Is T0 n (n * 2) f0 := by
    obtain ⟨T, e, i⟩ := forN_inv (n := n) (s := Mat.mk' n (n * 2) mem) (f := fun i tmp => forN n tmp (fun j tmp => do
        let x ← M.get i j
        let tmp ← tmp.set i j x
        tmp.set i (j + n) (if i = j then 1 else 0)))
      (I := fun k T => Is T n (n * 2) (fun i j => if i < k then f0 i j else mem (i * (n * 2) + j)))
      ((mk'_is n (n * 2) mem).congr fun i j _ _ => by simp) (by
        intro k T hk hT
        obtain ⟨T', e', i'⟩ := forN_inv (n := n) (s := T) (f := fun j tmp => do
            let x ← M.get k j
            let tmp ← tmp.set k j x
            tmp.set k (j + n) (if k = j then 1 else 0))
          (I := fun l T => Is T n (n * 2) (fun i j => if i < k ∨ i = k ∧ (j < l ∨ n ≤ j ∧ j < n + l) then f0 i j else mem (i * (n * 2) + j)))
          (hT.congr fun i j _ _ => by
            by_cases a : i < k
            · simp [a]
            · rw [if_neg a, if_neg (by omega)]) (by
            intro l T' hl hT'
            rw [h.get hk hl]
            simp only [ok_bind]
            obtain ⟨T1, e1, i1⟩ := hT'.set hk (show l < n * 2 by omega) (f k l)
            rw [e1]
            simp only [ok_bind]
            obtain ⟨T2, e2, i2⟩ := i1.set hk (show l + n < n * 2 by omega) (if k = l then 1 else 0)
            refine ⟨T2, e2, i2.congr fun i j _ _ => ?_⟩
            by_cases a : i = k ∧ j = l + n
            · rw [if_pos a]
              obtain ⟨rfl, rfl⟩ := a
              simp [f0, show l + n < n + (l + 1) by omega]
            · rw [if_neg a]
              by_cases b : i = k ∧ j = l
              · rw [if_pos b, if_pos (by omega)]
                simp only [f0]
                rw [if_pos (by omega), b.1, b.2]
              · rw [if_neg b]
                by_cases c : i < k ∨ i = k ∧ (j < l ∨ n ≤ j ∧ j < n + l)
                · rw [if_pos c, if_pos (by omega)]
                · rw [if_neg c, if_neg (by omega)])
        refine ⟨T', e', i'.congr fun i j _ hj => ?_⟩
        by_cases a : i < k + 1
        · rw [if_pos a, if_pos (by omega)]
        · rw [if_neg a, if_neg (by omega)])
    exact ⟨T, e, i.congr fun i j hi _ => by simp [hi]⟩
  rw [e0]
  simp only [ok_bind]
  have hv0 : ∀ i j, i < n → j < n * 2 → S.V (f0 i j) := by
    intro i j hi hj
    simp only [f0]
    split
    · exact hv i j hi ‹_›
    · split
      · exact H.v1.1
      · exact S.zero.1
  obtain ⟨T1, f1, e1, s1, hid⟩ := St.rref H (W := rowSpan n (n * 2) (fun i j => S.φ (f0 i j))) ⟨i0, hv0, rfl⟩ (by omega)
  rw [e1]
  simp only [ok_bind]
  -- the rows of the result are combinations of the rows of `[A | I]`
  have hcomb : ∀ i, i < n → ∃ c : Fin n → K, ∀ j, j < n * 2 → S.φ (f1 i j) = ∑ t : Fin n, c t * S.φ (f0 t j) := by
    intro i hi
    have hm := row_mem (C := n * 2) (g := fun i j => S.φ (f1 i j)) hi
    rw [s1.span] at hm
    unfold rowSpan at hm
    obtain ⟨c, hc⟩ := (Submodule.mem_span_range_iff_exists_fun K).mp hm
    refine ⟨c, fun j hj => ?_⟩
    have := congrFun hc ⟨j, hj⟩
    simp only [Finset.sum_apply, Pi.smul_apply, smul_eq_mul] at this
    exact this.symm
  have hright : ∀ i j, i < n → j < n → ∀ c : Fin n → K, (∀ j, j < n * 2 → S.φ (f1 i j) = ∑ t : Fin n, c t * S.φ (f0 t j)) →
      ∀ hj : j < n, S.φ (f1 i (j + n)) = c ⟨j, hj⟩ := by
    intro i j hi _ c hc hj
    rw [hc _ (by omega), Finset.sum_eq_single (⟨j, hj⟩ : Fin n)]
    · simp only [f0]
      rw [if_neg (by omega), if_pos (by omega), H.v1.2, mul_one]
    · intro t _ hne
      simp only [f0]
      rw [if_neg (by omega), if_neg (fun e => hne (Fin.ext (by simp only; omega))), S.zero.2, mul_zero]
    · intro h; exact absurd (Finset.mem_univ _) h
  -- hence left = right * A
  have hleft : ∀ i j : Fin n, S.φ (f1 i j) = ∑ t : Fin n, S.φ (f1 i (t + n)) * S.φ (f t j) := by
    intro i j
    obtain ⟨c, hc⟩ := hcomb i.1 i.2
    rw [hc j.1 (by omega)]
    refine Finset.sum_congr rfl fun t _ => ?_
    rw [hright i t i.2 t.2 c hc t.2]
    simp only [f0, j.2, if_true]
  have hB : Matrix.of (fun i j : Fin n => S.φ (f1 i j)) = Matrix.of (fun i j : Fin n => S.φ (f1 i (j + n))) * toM S n f := by
    ext i j
    rw [Matrix.mul_apply]
    exact hleft i j
  have hcheck := forN_check (n := n) (e := .throws .domainError)
    (P := fun i => ∀ j, j < n → f1 i j = if i = j then 1 else 0)
    (f := fun i _ => forN n () (fun j _ => do
      let x ← T1.get i j
      if x ≠ (if i = j then 1 else 0) then .error (.throws .domainError) else pure ())) (by
      intro i hi hP
      rcases forN_check (n := n) (e := .throws .domainError) (P := fun j => f1 i j = if i = j then 1 else 0)
        (f := fun j _ => do
          let x ← T1.get i j
          if x ≠ (if i = j then 1 else 0) then .error (.throws .domainError) else pure ())
        (fun j hj hP => by rw [s1.is.get hi (by omega)]; simp only [ok_bind]; rw [if_neg (by simpa using hP)]; rfl)
        (fun j hj hP => by rw [s1.is.get hi (by omega)]; simp only [ok_bind]; rw [if_pos hP]) with ⟨_, he⟩ | ⟨⟨j, hj, hj'⟩, _⟩
      · exact he
      · exact absurd (hP j hj) hj') (by
      intro i hi hP
      rcases forN_check (n := n) (e := .throws .domainError) (P := fun j => f1 i j = if i = j then 1 else 0)
        (f := fun j _ => do
          let x ← T1.get i j
          if x ≠ (if i = j then 1 else 0) then .error (.throws .domainError) else pure ())
        (fun j hj hP => by rw [s1.is.get hi (by omega)]; simp only [ok_bind]; rw [if_neg (by simpa using hP)]; rfl)
        (fun j hj hP => by rw [s1.is.get hi (by omega)]; simp only [ok_bind]; rw [if_pos hP]) with ⟨h, _⟩ | ⟨_, he⟩
      · exact absurd h hP
      · exact he)
  have hone : (∀ i, i < n → ∀ j, j < n → f1 i j = if i = j then 1 else 0) →
      Matrix.of (fun i j : Fin n => S.φ (f1 i (j + n))) * toM S n f = 1 := by
    intro hI
    rw [← hB]
    ext i j
    rw [Matrix.of_apply, hI i.1 i.2 j.1 j.2, Matrix.one_apply]
    by_cases a : i = j
    · rw [if_pos (by rw [a]), if_pos a, H.v1.2]
    · rw [if_neg (fun e => a (Fin.ext e)), if_neg a, S.zero.2]
  refine ⟨fun hu => ?_, fun hu => ?_⟩
  · have hI := hid (by
      intro w hw hx
      have hA : Matrix.mulVec (toM S n f) (fun c : Fin n => w ⟨c.1, by omega⟩) = 0 := by
        funext i
        have h1 := hx _ (row_mem (C := n * 2) (g := fun i j => S.φ (f0 i j)) i.2)
        have h2 : ∑ c : Fin (n * 2), S.φ (f0 i c) * w c = ∑ c : Fin n, S.φ (f i c) * w ⟨c.1, by omega⟩ := by
          let w' : Nat → K := fun c => if hc : c < n * 2 then w ⟨c, hc⟩ else 0
          have e1 : ∑ c : Fin (n * 2), S.φ (f0 i c) * w c = ∑ c ∈ Finset.range (n * 2), S.φ (f0 i c) * w' c := by
            rw [← Fin.sum_univ_eq_sum_range (fun c => S.φ (f0 i c) * w' c)]
            exact Finset.sum_congr rfl fun c _ => by simp only [w', dif_pos c.2]
          have e2 : ∑ c : Fin n, S.φ (f i c) * w ⟨c.1, by omega⟩ = ∑ c ∈ Finset.range n, S.φ (f0 i c) * w' c := by
            rw [← Fin.sum_univ_eq_sum_range (fun c => S.φ (f0 i c) * w' c)]
            exact Finset.sum_congr rfl fun c _ => by
              have := c.2
              simp only [w', f0, dif_pos (show c.1 < n * 2 by omega), if_pos c.2]
          rw [e1, e2]
          refine (Finset.sum_subset (fun c hc => ?_) fun c hc hc' => ?_).symm
          · simp only [Finset.mem_range] at hc ⊢; omega
          · simp only [Finset.mem_range] at hc hc'
            simp only [w', dif_pos hc]
            rw [hw ⟨c, hc⟩ (by simp only; omega), mul_zero]
        rw [h2] at h1
        exact h1
      have hz : (fun c : Fin n => w ⟨c.1, by omega⟩) = 0 := by
        have := congrArg (Matrix.mulVec (toM S n f)⁻¹) hA
        rwa [Matrix.mulVec_mulVec, Matrix.nonsing_inv_mul _ hu, Matrix.one_mulVec, Matrix.mulVec_zero] at this
      funext c
      by_cases a : c.1 < n
      · exact congrFun hz ⟨c.1, a⟩
      · exact hw c (by omega))
    rcases hcheck with ⟨_, he⟩ | ⟨⟨i, hi, hP⟩, _⟩
    · rw [he]
      simp only [ok_bind]
      obtain ⟨M', e', i'⟩ := h.fillSet (v := fun i j M => T1.get i (j + M.n_cols)) (fun i j => f1 i (j + n)) (by
        intro i j M' hi hj hM'
        rw [hM'.cols, s1.is.get hi (by omega)])
      refine ⟨M', _, ?_, i', fun i j hi hj => s1.v i (j + n) hi (by omega), ?_⟩
      · convert e' using 2
      · exact (Matrix.inv_eq_left_inv (hone fun i hi j hj => hI i j hi hj)).symm
    · exact absurd (fun j hj => hI i j hi hj) hP
  · rcases hcheck with ⟨hI, he⟩ | ⟨_, he⟩
    · exact absurd (Matrix.isUnit_det_of_left_inverse (hone hI)) hu
    · rw [he]; rfl

end Mat
end Quad
