import Verif.Lemmas.MatCode

/-!
# The Cauchy matrix

`cauchy` leaves ones in row 0 and in column 0, and `1 / (i + (j + m))` elsewhere.
-/

namespace Quad.Mat
variable {K : Type} [Field K] {F : GF} {S : F.Sim K} {m k : Nat} {M : Mat} {f : Nat → Nat → Nat}
open Finset Polynomial

/-- `cauchy` on a matrix of `m` rows and `k` columns -/
theorem cauchy_spec (H : S.Full) (h : Is M m k f) (hV : ∀ t, t < m + k → S.V t)
    (hne : ∀ i j, i < m → j < k → S.φ i + S.φ (j + m) ≠ 0) :
    ∃ M' f', M.cauchy F = .ok M' ∧ Is M' m k f' ∧ (∀ i j, i < m → j < k → S.V (f' i j)) ∧
      ∀ i j, i < m → j < k → S.φ (f' i j) = if i = 0 ∨ j = 0 then 1 else (S.φ i + S.φ (j + m))⁻¹ := by
  unfold cauchy
  rw [h.rows]
  have hinv : ∀ i j, i < m → j < k → ∃ r, F.inv (F.add i (j + m)) = .ok r ∧ S.V r ∧ S.φ r = (S.φ i + S.φ (j + m))⁻¹ := by
    intro i j hi hj
    have ha := S.add (hV i (by omega)) (hV (j + m) (by omega))
    obtain ⟨r, e, h1, h2⟩ := S.inv ha.1 (H.u ha.1 (by rw [ha.2]; exact hne i j hi hj))
    exact ⟨r, e, h1, by rw [h2, ha.2]⟩
  classical
  choose! g hg1 hg2 hg3 using hinv
  obtain ⟨M0, e0, i0⟩ := h.fillSet (v := fun i j M => F.inv (F.add i (j + M.n_rows))) g (by
    intro i j M' hi hj hM
    rw [hM.rows]; exact hg1 i j hi hj)
  rw [e0]
  simp only [ok_bind]
  have hg0 : ∀ i j, i < m → j < k → S.φ (g i j) ≠ 0 := fun i j hi hj => by
    rw [hg3 i j hi hj]; exact inv_ne_zero (hne i j hi hj)
  have hself : ∀ x, S.V x → S.φ x ≠ 0 → F.div x x = .ok 1 := by
    intro x hx h0
    obtain ⟨r, e, h1, h2⟩ := S.div hx hx (H.u hx h0)
    rw [div_self h0] at h2
    rw [e, (H.eq_one h1).mp h2]
  have hone : ∀ x, S.V x → F.div x 1 = .ok x := by
    intro x hx
    obtain ⟨r, e, h1, h2⟩ := S.div hx H.v1.1 (H.u H.v1.1 (by rw [H.v1.2]; exact one_ne_zero))
    rw [H.v1.2, div_one] at h2
    rw [e, H.inj h1 hx h2]
  -- first row
  let g1 : Nat → Nat → Nat := fun i j => if i = 0 then 1 else g i j
  obtain ⟨M1, e1, i1⟩ : ∃ M1, forN M0.n_cols M0 (fun j M => forN M.n_rows M (fun i M => do
      let x ← M.get i j
      let y ← M.get 0 j
      let z ← F.div x y
      M.set i j z)) = .ok M1 ∧ Is M1 m k g1 := by
    rw [i0.cols]
    obtain ⟨M1, e, i⟩ := forN_inv (n := k) (s := M0) (f := fun j M => forN M.n_rows M (fun i M => do
        let x ← M.get i j
        let y ← M.get 0 j
        let z ← F.div x y
        M.set i j z))
      (I := fun l M' => Is M' m k (fun i j => if j < l then g1 i j else g i j)) (i0.congr fun i j _ _ => by simp) (by
        intro l M' hl hM
        rw [hM.rows]
        obtain ⟨M'', e'', i''⟩ := hM.colLoop hl (val := fun i M => do
            let x ← M.get i l
            let y ← M.get 0 l
            F.div x y) (fun i => g1 i l) (by
          intro t M'' ht hM'
          rw [hM'.get ht hl, hM'.get (show 0 < m by omega) hl]
          simp only [ok_bind, lt_irrefl, and_false, if_false]
          by_cases t0 : t = 0
          · subst t0
            simp only [lt_irrefl, and_false, if_false]
            rw [hself _ (hg2 0 l ht hl) (hg0 0 l ht hl)]
            simp [g1]
          · simp only [true_and, show 0 < t by omega, if_true]
            rw [show g1 0 l = 1 by simp [g1], hone _ (hg2 t l ht hl)]
            simp [g1, t0])
        refine ⟨M'', by simpa only [bind_assoc] using e'', i''.congr fun a c _ _ => ?_⟩
        by_cases c1 : c = l
        · subst c1; simp
        · by_cases c2 : c < l
          · simp [c1, c2, show c < l + 1 by omega]
          · simp [c1, c2, show ¬ c < l + 1 by omega])
    exact ⟨M1, e, i.congr fun a c _ hc => by simp [hc]⟩
  rw [e1]
  simp only [ok_bind]
  rw [i1.rows]
  -- first column
  let g2 : Nat → Nat → Nat := fun i j => if i = 0 ∨ j = 0 then 1 else g i j
  obtain ⟨M2, e2, i2⟩ := forStep_inv (a := 1) (b := m) (st := 1) (s := M1) (f := fun i M => forN M.n_cols M (fun j M => do
      let x ← M.get i j
      let y ← M.get i 0
      let z ← F.div x y
      M.set i j z))
    (I := fun l M' => Is M' m k (fun i j => if i < l + 1 then g2 i j else g1 i j)) (by omega)
    (i1.congr fun i j _ _ => by
      by_cases a : i < 0 + 1
      · have : i = 0 := by omega
        simp [this, g1, g2]
      · rw [if_neg a]) (by
      intro l M' hl hM
      simp only [mul_one] at hl ⊢
      rw [hM.cols]
      obtain ⟨M'', e'', i''⟩ := forN_inv (n := k) (s := M') (f := fun j M => do
          let x ← M.get (1 + l) j
          let y ← M.get (1 + l) 0
          let z ← F.div x y
          M.set (1 + l) j z)
        (I := fun q M' => Is M' m k (fun i j => if i < l + 1 ∨ i = l + 1 ∧ j < q then g2 i j else g1 i j))
        (hM.congr fun i j _ _ => by simp) (by
          intro q M'' hq hM'
          rw [hM'.get hl hq, hM'.get hl (show 0 < k by omega)]
          simp only [ok_bind]
          have hg1l : ∀ c, g1 (1 + l) c = g (1 + l) c := fun c => by simp only [g1]; rw [if_neg (by omega)]
          have hz : F.div (if 1 + l < l + 1 ∨ 1 + l = l + 1 ∧ q < q then g2 (1 + l) q else g1 (1 + l) q)
              (if 1 + l < l + 1 ∨ 1 + l = l + 1 ∧ 0 < q then g2 (1 + l) 0 else g1 (1 + l) 0) = .ok (g2 (1 + l) q) := by
            rw [if_neg (by omega), hg1l, hg1l]
            by_cases q0 : q = 0
            · subst q0
              rw [if_neg (by omega), hself _ (hg2 _ 0 hl hq) (hg0 _ 0 hl hq)]
              simp [g2]
            · rw [if_pos (by omega), show g2 (1 + l) 0 = 1 by simp [g2], hone _ (hg2 _ q hl hq)]
              simp [g2, q0]
          rw [hz]
          simp only [ok_bind]
          obtain ⟨N, eN, iN⟩ := hM'.set hl hq (g2 (1 + l) q)
          refine ⟨N, eN, iN.congr fun a c _ _ => ?_⟩
          by_cases a1 : a = 1 + l ∧ c = q
          · rw [if_pos a1, if_pos (by omega), a1.1, a1.2]
          · rw [if_neg a1]
            by_cases a2 : a < l + 1 ∨ a = l + 1 ∧ c < q
            · rw [if_pos a2, if_pos (by omega)]
            · rw [if_neg a2, if_neg (by omega)])
      refine ⟨M'', e'', i''.congr fun a c _ hc => ?_⟩
      by_cases a1 : a < l + 1 + 1
      · rw [if_pos a1, if_pos (by omega)]
      · rw [if_neg a1, if_neg (by omega)])
  have hstr : stride 1 m 1 = m - 1 := by unfold stride; simp
  rw [hstr] at i2
  refine ⟨M2, g2, e2, i2.congr fun a c ha _ => by rw [if_pos (by omega)], fun i j hi hj => ?_, fun i j hi hj => ?_⟩
  · simp only [g2]
    split
    · exact H.v1.1
    · exact hg2 i j hi hj
  · simp only [g2]
    split
    · exact H.v1.2
    · exact hg3 i j hi hj

/-- the entries of the matrix `cauchy` builds -/
def IsCauchy {F : GF} (S : F.Sim K) (m k : Nat) (f : Nat → Nat → Nat) : Prop :=
  ∀ i j, i < m → j < k → S.φ (f i j) = if i = 0 ∨ j = 0 then 1 else (S.φ i + S.φ (j + m))⁻¹

open Classical in
/-- a combination of the columns `L` that vanishes on as many rows is zero, unless both column 0 and row 0 are involved -/
theorem cauchy_kernel {x : Nat → K} {y : Nat → K} {L P : Finset Nat} {v : Nat → K}
    (hx : ∀ i ∈ L, ∀ j ∈ L, x i = x j → i = j) (hy : ∀ i ∈ P, ∀ j ∈ P, y i = y j → i = j)
    (hne : ∀ i ∈ P, ∀ j ∈ L, y i + x j ≠ 0) (hcard : P.card = L.card)
    (hv : ∀ i ∈ P, ∑ j ∈ L, (if i = 0 ∨ j = 0 then 1 else (y i + x j)⁻¹) * v j = 0)
    (hcase : 0 ∉ L ∨ 0 ∉ P) : ∀ j ∈ L, v j = 0 := by
  let L' := L.erase 0
  let v0 : K := if 0 ∈ L then v 0 else 0
  let Q : Finset Nat → K[X] := fun s => ∏ l ∈ s, (X + Polynomial.C (x l))
  let N : K[X] := Polynomial.C v0 * Q L' + ∑ j ∈ L', Polynomial.C (v j) * Q (L'.erase j)
  have hQm : ∀ s, (Q s).Monic := fun s => monic_prod_of_monic _ _ fun l _ => monic_X_add_C _
  have hQd : ∀ s, (Q s).degree = s.card := fun s => by
    simp only [Q]
    rw [degree_prod]
    simp
  have hsplit : ∀ g : Nat → K, ∑ j ∈ L, g j * v j = (if 0 ∈ L then g 0 * v 0 else 0) + ∑ j ∈ L', g j * v j := by
    intro g
    by_cases h0 : 0 ∈ L
    · rw [if_pos h0, ← Finset.add_sum_erase L _ h0]
    · rw [if_neg h0, zero_add]
      simp only [L', Finset.erase_eq_of_notMem h0]
  have hroot : ∀ i ∈ P, i ≠ 0 → N.eval (y i) = 0 := by
    intro i hi h0
    have h1 := hv i hi
    rw [hsplit] at h1
    have h2 : N.eval (y i) = (Q L').eval (y i) * ((if 0 ∈ L then (if i = 0 ∨ 0 = 0 then 1 else (y i + x 0)⁻¹) * v 0 else 0) +
        ∑ j ∈ L', (if i = 0 ∨ j = 0 then 1 else (y i + x j)⁻¹) * v j) := by
      simp only [N, eval_add, eval_mul, eval_C, eval_finset_sum, mul_add, Finset.mul_sum]
      congr 1
      · simp only [v0]
        by_cases h : 0 ∈ L
        · simp only [if_pos h, or_true, if_true, one_mul]; ring
        · simp only [if_neg h, mul_zero, zero_mul]
      · refine sum_congr rfl fun j hj => ?_
        have hj' := Finset.mem_erase.mp hj
        rw [if_neg (by tauto)]
        have hnz := hne i hi j hj'.2
        have : (Q L').eval (y i) = (y i + x j) * (Q (L'.erase j)).eval (y i) := by
          simp only [Q]
          rw [← Finset.mul_prod_erase L' _ hj]
          simp
        rw [this]
        field_simp
    rw [h2, h1, mul_zero]
  -- enough roots
  have hN : N = 0 := by
    by_contra hN0
    have hfew : ∀ s : Finset Nat, s ⊆ P → 0 ∉ s → ¬ N.degree < s.card := by
      intro s hs h0 hd
      apply hN0
      refine eq_zero_of_natDegree_lt_card_of_eval_eq_zero' N (s.image y) ?_ ?_
      · intro z hz
        obtain ⟨i, hi, rfl⟩ := mem_image.mp hz
        exact hroot i (hs hi) (fun e => h0 (e ▸ hi))
      · rw [card_image_of_injOn (fun a ha b hb e => hy a (hs ha) b (hs hb) e), natDegree_lt_iff_degree_lt hN0]
        exact hd
    have hsum : ∀ d : Nat, L'.card ≤ d → (∑ j ∈ L', Polynomial.C (v j) * Q (L'.erase j)).degree < d ∨ L' = ∅ := by
      intro d hd
      by_cases he : L' = ∅
      · exact Or.inr he
      · left
        have hpos : 0 < L'.card := Finset.card_pos.mpr (Finset.nonempty_iff_ne_empty.mpr he)
        refine lt_of_le_of_lt ((degree_sum_le _ _).trans (Finset.sup_le (a := ((L'.card - 1 : Nat) : WithBot Nat)) fun j hj => ?_))
          (by exact_mod_cast (show L'.card - 1 < d by omega))
        refine (degree_C_mul_le' _ _).trans ?_
        rw [hQd, Finset.card_erase_of_mem hj]
    have hsum' : ∀ d : Nat, L'.card ≤ d → 0 < d → (∑ j ∈ L', Polynomial.C (v j) * Q (L'.erase j)).degree < d := by
      intro d hd h0
      rcases hsum d hd with h | h
      · exact h
      · rw [h]; simp
    by_cases h0P : 0 ∈ P
    · have h0L : 0 ∉ L := hcase.resolve_right (by simpa using h0P)
      have hL' : L' = L := Finset.erase_eq_of_notMem h0L
      have hv0 : v0 = 0 := by simp only [v0, if_neg h0L]
      refine hfew (P.erase 0) (Finset.erase_subset _ _) (by simp) ?_
      rw [Finset.card_erase_of_mem h0P, hcard, degree_lt_iff_coeff_zero]
      intro d hd
      have hPpos : 0 < P.card := Finset.card_pos.mpr ⟨0, h0P⟩
      have hs := hv 0 h0P
      simp only [true_or, if_true, one_mul] at hs
      simp only [N, hv0, map_zero, zero_mul, zero_add, finset_sum_coeff, coeff_C_mul]
      rw [hL']
      by_cases hd' : d = L.card - 1
      · rw [← hs]
        refine sum_congr rfl fun j hj => ?_
        have : (Q (L.erase j)).coeff d = 1 := by
          have h1 := (hQm (L.erase j)).coeff_natDegree
          rwa [natDegree_eq_of_degree_eq_some (hQd _), Finset.card_erase_of_mem hj, ← hd'] at h1
        rw [this, mul_one]
      · refine sum_eq_zero fun j hj => ?_
        rw [coeff_eq_zero_of_degree_lt, mul_zero]
        rw [hQd, Finset.card_erase_of_mem hj]
        exact_mod_cast (show L.card - 1 < d by omega)
    · refine hfew P (Finset.Subset.refl _) h0P ?_
      by_cases h0L : 0 ∈ L
      · have hc : L'.card + 1 = P.card := by
          rw [hcard]; simp only [L']; rw [Finset.card_erase_of_mem h0L]
          have := Finset.card_pos.mpr ⟨0, h0L⟩; omega
        refine lt_of_le_of_lt (degree_add_le _ _) (max_lt ?_ (hsum' _ (by omega) (by omega)))
        refine lt_of_le_of_lt (degree_C_mul_le' _ _) ?_
        rw [hQd]
        exact_mod_cast (show L'.card < P.card by omega)
      · have hL' : L' = L := Finset.erase_eq_of_notMem h0L
        have hv0 : v0 = 0 := by simp only [v0, if_neg h0L]
        have hNe : N = ∑ j ∈ L', Polynomial.C (v j) * Q (L'.erase j) := by simp only [N, hv0, map_zero, zero_mul, zero_add]
        rcases hsum P.card (by rw [hL', hcard]) with h | h
        · rw [hNe]; exact h
        · exact absurd (by rw [hNe, h]; simp) hN0
  have hvj : ∀ j ∈ L', v j = 0 := by
    intro j hj
    have h1 : N.eval (- x j) = 0 := by rw [hN, eval_zero]
    have hQz : ∀ s : Finset Nat, j ∈ s → (Q s).eval (- x j) = 0 := by
      intro s hs
      simp only [Q, eval_prod]
      exact prod_eq_zero hs (by simp)
    simp only [N, eval_add, eval_mul, eval_C, eval_finset_sum] at h1
    rw [hQz L' hj, mul_zero, zero_add, sum_eq_single j] at h1
    · rcases mul_eq_zero.mp h1 with h | h
      · exact h
      · exfalso
        simp only [Q, eval_prod] at h
        obtain ⟨l, hl, hl0⟩ := prod_eq_zero_iff.mp h
        have hl' := Finset.mem_erase.mp hl
        simp only [eval_add, eval_X, eval_C] at hl0
        have : x l = x j := by linear_combination hl0
        exact hl'.1 (hx l (Finset.mem_erase.mp hl'.2).2 j (Finset.mem_erase.mp hj).2 this)
    · intro l hl hlj
      rw [hQz _ (Finset.mem_erase.mpr ⟨Ne.symm hlj, hj⟩), mul_zero]
    · intro h; exact absurd hj h
  intro j hj
  by_cases j0 : j = 0
  · subst j0
    have h1 : Polynomial.C v0 * Q L' = 0 := by
      have : (∑ j ∈ L', Polynomial.C (v j) * Q (L'.erase j)) = 0 := sum_eq_zero fun j hj => by rw [hvj j hj]; simp
      simp only [N, this, add_zero] at hN
      exact hN
    rcases mul_eq_zero.mp h1 with h | h
    · have : v0 = 0 := by simpa using h
      simpa only [v0, if_pos hj] using this
    · exact absurd h (hQm L').ne_zero
  · exact hvj j (Finset.mem_erase.mpr ⟨j0, hj⟩)

open Classical in
/-- which selections of fragments the Cauchy code recovers from: data fragment 0 is among them, or parity
fragment 0 is not, or there are at most two parity fragments -/
theorem cauchy_unit (H : S.Full) (hV : ∀ t, t < m + k → S.V t) (hne : ∀ i j, i < m → j < k → S.φ i + S.φ (j + m) ≠ 0)
    (hn1 : ∀ i j, 0 < i → 0 < j → i < m → j < k → S.φ i + S.φ (j + m) ≠ 1) (hf : IsCauchy S m k f)
    {ids : Nat → Nat} (h1 : ∀ a, a < k → ids a < k + m) (h2 : ∀ a b, a < k → b < k → ids a = ids b → a = b)
    (hcase : (∃ a, a < k ∧ ids a = 0) ∨ (∀ a, a < k → ids a ≠ k) ∨ ((range k).filter (fun a => k ≤ ids a)).card ≤ 2) :
    IsUnit (toM S k (pick k f ids)).det := by
  apply isUnit_det_of_ker
  intro v hv
  let v' : Nat → K := fun j => if h : j < k then v ⟨j, h⟩ else 0
  have hrow : ∀ a, a < k → ∑ j ∈ range k, S.φ (pick k f ids a j) * v' j = 0 := by
    intro a ha
    have := congrFun hv ⟨a, ha⟩
    rw [Matrix.mulVec, dotProduct] at this
    rw [← Fin.sum_univ_eq_sum_range (fun j => S.φ (pick k f ids a j) * v' j), ← show _ = (0 : K) from this]
    refine sum_congr rfl fun j _ => ?_
    simp only [v', dif_pos j.2]
    rfl
  have hdata : ∀ a, a < k → ids a < k → v' (ids a) = 0 := by
    intro a ha hlt
    have := hrow a ha
    rw [sum_eq_single (ids a)] at this
    · simpa only [pick, if_pos hlt, if_true, H.v1.2, one_mul] using this
    · intro j _ hj
      simp only [pick, if_pos hlt, if_neg hj, S.zero.2, zero_mul]
    · intro h; exact absurd (mem_range.mpr hlt) h
  let I := (range k).image ids
  have hI : ∀ t, t ∈ I ↔ ∃ a, a < k ∧ ids a = t := fun t => by simp [I]
  have hIc : I.card = k := by
    simp only [I]
    rw [card_image_of_injOn, card_range]
    intro a ha b hb e
    simp only [coe_range, Set.mem_Iio] at ha hb
    exact h2 a b ha hb e
  let L := range k \ I
  let Q := I \ range k
  let P := Q.image (fun t => t - k)
  have hLQ : Q.card = L.card := by
    have e1 := Finset.card_sdiff_add_card_inter I (range k)
    have e2 := Finset.card_sdiff_add_card_inter (range k) I
    rw [Finset.inter_comm] at e2
    rw [card_range] at e2
    simp only [L, Q]
    omega
  have hQ : ∀ t ∈ Q, k ≤ t ∧ ∃ a, a < k ∧ ids a = t := by
    intro t ht
    have := Finset.mem_sdiff.mp ht
    exact ⟨by simpa using this.2, (hI t).mp this.1⟩
  have hPQ : P.card = Q.card := by
    simp only [P]
    rw [card_image_of_injOn]
    intro a ha b hb e
    have := (hQ a ha).1
    have := (hQ b hb).1
    simp only at e
    omega
  have hcard : P.card = L.card := hPQ.trans hLQ
  have hP : ∀ i ∈ P, i < m ∧ ∃ a, a < k ∧ ids a = k + i := by
    intro i hi
    obtain ⟨t, ht, rfl⟩ := mem_image.mp hi
    obtain ⟨h3, a, ha, e⟩ := hQ t ht
    have := h1 a ha
    exact ⟨by omega, a, ha, by omega⟩
  have hLk : ∀ j ∈ L, j < k ∧ ∀ a, a < k → ids a ≠ j := by
    intro j hj
    have := Finset.mem_sdiff.mp hj
    exact ⟨mem_range.mp this.1, fun a ha e => this.2 ((hI j).mpr ⟨a, ha, e⟩)⟩
  have hout : ∀ j, j < k → j ∉ L → v' j = 0 := by
    intro j hj hL
    have : j ∈ I := by
      by_contra c
      exact hL (Finset.mem_sdiff.mpr ⟨mem_range.mpr hj, c⟩)
    obtain ⟨a, ha, rfl⟩ := (hI j).mp this
    exact hdata a ha hj
  have hsum : ∀ i ∈ P, ∑ j ∈ L, (if i = 0 ∨ j = 0 then 1 else (S.φ i + S.φ (j + m))⁻¹) * v' j = 0 := by
    intro i hi
    obtain ⟨him, a, ha, e⟩ := hP i hi
    rw [← hrow a ha]
    refine (sum_subset (fun j hj => mem_range.mpr (hLk j hj).1) fun j hj hj' => ?_).trans (sum_congr rfl fun j hj => ?_)
    · rw [hout j (mem_range.mp hj) hj', mul_zero]
    · rw [← hf i j him (mem_range.mp hj)]
      simp only [pick]
      rw [if_neg (show ¬ ids a < k by omega), show ids a - k = i by omega]
  have hzero : ∀ j ∈ L, v' j = 0 := by
    by_cases hz : 0 ∉ L ∨ 0 ∉ P
    · refine cauchy_kernel (x := fun j => S.φ (j + m)) (y := fun i => S.φ i) ?_ ?_ ?_ hcard hsum hz
      · intro i hi j hj e
        have := H.inj (hV _ (by have := (hLk i hi).1; omega)) (hV _ (by have := (hLk j hj).1; omega)) e
        omega
      · intro i hi j hj e
        exact H.inj (hV _ (by have := (hP i hi).1; omega)) (hV _ (by have := (hP j hj).1; omega)) e
      · intro i hi j hj
        exact hne i j (hP i hi).1 (hLk j hj).1
    · push Not at hz
      obtain ⟨h0L, h0P⟩ := hz
      have hP2 : P.card ≤ 2 := by
        rcases hcase with ⟨a, ha, e⟩ | h | h
        · exact absurd e ((hLk 0 h0L).2 a ha)
        · obtain ⟨_, a, ha, e⟩ := hP 0 h0P
          exact absurd e (h a ha)
        · rw [hPQ]
          refine le_trans ?_ h
          have : Q ⊆ ((range k).filter (fun a => k ≤ ids a)).image ids := by
            intro t ht
            obtain ⟨h3, a, ha, e⟩ := hQ t ht
            exact mem_image.mpr ⟨a, by simp [ha, e, h3], e⟩
          exact (card_le_card this).trans card_image_le
      have hL0 := Finset.card_erase_of_mem h0L
      have hP0 := Finset.card_erase_of_mem h0P
      have e0 := hsum 0 h0P
      simp only [true_or, if_true, one_mul] at e0
      have hLpos := card_pos.mpr ⟨0, h0L⟩
      by_cases hc1 : L.card = 1
      · obtain ⟨z, hz⟩ := card_eq_one.mp hc1
        have : z = 0 := by rw [hz, mem_singleton] at h0L; exact h0L.symm
        subst this
        rw [hz, sum_singleton] at e0
        intro j hj
        rw [hz, mem_singleton] at hj
        rw [hj]; exact e0
      · obtain ⟨j, hj⟩ := card_eq_one.mp (show (L.erase 0).card = 1 by omega)
        obtain ⟨i, hi⟩ := card_eq_one.mp (show (P.erase 0).card = 1 by omega)
        have hjm : j ∈ L.erase 0 := by rw [hj]; simp
        have him : i ∈ P.erase 0 := by rw [hi]; simp
        obtain ⟨hj0, hjL⟩ := Finset.mem_erase.mp hjm
        obtain ⟨hi0, hiP⟩ := Finset.mem_erase.mp him
        have ei := hsum i hiP
        rw [← Finset.add_sum_erase L _ h0L, hj, sum_singleton] at e0 ei
        rw [if_pos (by simp), if_neg (by tauto), one_mul] at ei
        have hij := hne i j (hP i hiP).1 (hLk j hjL).1
        have hij1 := hn1 i j (by omega) (by omega) (hP i hiP).1 (hLk j hjL).1
        have hvj : v' j = 0 := by
          have : (S.φ i + S.φ (j + m) - 1) * v' j = 0 := by
            field_simp at ei
            linear_combination (S.φ i + S.φ (j + m)) * e0 - ei
          rcases mul_eq_zero.mp this with h | h
          · exact absurd (sub_eq_zero.mp h) hij1
          · exact h
        intro l hl
        by_cases l0 : l = 0
        · subst l0; rw [hvj, add_zero] at e0; exact e0
        · have : l ∈ L.erase 0 := Finset.mem_erase.mpr ⟨l0, hl⟩
          rw [hj, mem_singleton] at this
          rw [this]; exact hvj
  funext j
  have : v' j = 0 := by
    by_cases hj : j.1 ∈ L
    · exact hzero _ hj
    · exact hout _ j.2 hj
  simp only [v', dif_pos j.2] at this
  exact this

/-- The Cauchy code does not recover when data fragments 0, `j` and `j'` are replaced by parity fragments
0, 1 and 2, and `j' + m` is `(j + m) + 2` in the field. -/
theorem cauchy_not_unit (H : S.Full) (hV : ∀ t, t < m + k → S.V t) (hne : ∀ i j, i < m → j < k → S.φ i + S.φ (j + m) ≠ 0)
    (h2 : (2 : K) = 0) (hm : 3 ≤ m) (hf : IsCauchy S m k f) {j j' : Nat} (hj0 : 0 < j) (hj : j < k) (hj'0 : 0 < j') (hj' : j' < k)
    (hjj : S.φ (j' + m) = S.φ (j + m) + S.φ 2) (hjne : j ≠ j')
    {ids : Nat → Nat} (h1 : ∀ a, a < k → ids a ≠ 0 ∧ ids a ≠ j ∧ ids a ≠ j' ∧ (k ≤ ids a → ids a < k + 3)) :
    ¬ IsUnit (toM S k (pick k f ids)).det := by
  have hx1 := hne 1 j (by omega) hj
  have hx2 := hne 2 j (by omega) hj
  have hx1' := hne 1 j' (by omega) hj'
  have hx2' := hne 2 j' (by omega) hj'
  rw [hjj] at hx1' hx2'
  rw [H.v1.2] at hx1 hx1'
  set x := S.φ (j + m) with hx
  set s := S.φ 2 with hs
  have hneg : ∀ z : K, z + z = 0 := fun z => by rw [← two_mul, h2, zero_mul]
  let v : Fin k → K := fun c => if c.1 = 0 then (1 + x)⁻¹ + (1 + (x + s))⁻¹ else if c.1 = j then 1 + (1 + (x + s))⁻¹
    else if c.1 = j' then 1 + (1 + x)⁻¹ else 0
  intro hu
  have hz : v = 0 := by
    have hker : (toM S k (pick k f ids)).mulVec v = 0 := by
      funext a
      obtain ⟨n0, nj, nj', hpar⟩ := h1 a.1 a.2
      rw [Matrix.mulVec, dotProduct, Pi.zero_apply]
      have hk0 : 0 < k := by omega
      have hexp : ∑ c : Fin k, toM S k (pick k f ids) a c * v c =
          S.φ (pick k f ids a 0) * ((1 + x)⁻¹ + (1 + (x + s))⁻¹) + S.φ (pick k f ids a j) * (1 + (1 + (x + s))⁻¹) +
            S.φ (pick k f ids a j') * (1 + (1 + x)⁻¹) := by
        rw [← Finset.add_sum_erase univ _ (mem_univ (⟨0, hk0⟩ : Fin k)),
          ← Finset.add_sum_erase (univ.erase (⟨0, hk0⟩ : Fin k)) _ (a := (⟨j, hj⟩ : Fin k)) (by simp; omega),
          ← Finset.add_sum_erase ((univ.erase (⟨0, hk0⟩ : Fin k)).erase (⟨j, hj⟩ : Fin k)) _ (a := (⟨j', hj'⟩ : Fin k)) (by simp; omega),
          sum_eq_zero]
        · simp only [v, toM, Matrix.of_apply, if_true, if_neg (show ¬ j = 0 by omega), if_neg (show ¬ j' = 0 by omega),
            if_neg (Ne.symm hjne)]
          ring
        · intro c hc
          simp only [mem_erase, mem_univ, and_true, ne_eq, Fin.ext_iff] at hc
          simp only [v]
          rw [if_neg hc.2.2, if_neg hc.2.1, if_neg hc.1, mul_zero]
      rw [hexp]
      by_cases hd : ids a < k
      · simp only [pick, if_pos hd, if_neg (Ne.symm n0), if_neg (Ne.symm nj), if_neg (Ne.symm nj'), S.zero.2]
        ring
      · have hb := hpar (by omega)
        simp only [pick, if_neg hd]
        rw [hf _ 0 (by omega) hk0, hf _ j (by omega) hj, hf _ j' (by omega) hj', if_pos (Or.inr rfl)]
        have hcases : ids a - k = 0 ∨ ids a - k = 1 ∨ ids a - k = 2 := by omega
        rcases hcases with e | e | e
        · rw [e]
          simp only [true_or, if_true, one_mul]
          linear_combination hneg (1 + x)⁻¹ + hneg (1 + (x + s))⁻¹ + hneg 1
        · rw [e, if_neg (by omega), if_neg (by omega), hjj, H.v1.2, ← hx]
          linear_combination hneg (1 + x)⁻¹ + hneg (1 + (x + s))⁻¹ + hneg ((1 + x)⁻¹ * (1 + (x + s))⁻¹)
        · rw [e, if_neg (by omega), if_neg (by omega), hjj, ← hx, ← hs]
          have e1 : (s + (x + s)) = x := by linear_combination hneg s
          have hx0 : x ≠ 0 := by rw [← e1]; exact hx2'
          rw [e1]
          have e2 : ∀ y : K, 1 + y ≠ 0 → 1 + (1 + y)⁻¹ = y * (1 + y)⁻¹ := by
            intro y hy
            field_simp
            linear_combination hneg 1
          rw [e2 x hx1, e2 (x + s) hx1', add_comm s x, ← mul_assoc, ← mul_assoc, inv_mul_cancel₀ hx0,
            inv_mul_cancel₀ (by rw [add_comm]; exact hx2)]
          linear_combination hneg (1 + x)⁻¹ + hneg (1 + (x + s))⁻¹
    have := congrArg (Matrix.mulVec (toM S k (pick k f ids))⁻¹) hker
    rwa [Matrix.mulVec_mulVec, Matrix.nonsing_inv_mul _ hu, Matrix.one_mulVec, Matrix.mulVec_zero] at this
  have hvj := congrFun hz ⟨j, hj⟩
  simp only [v, Pi.zero_apply, if_neg (show ¬ j = 0 by omega), if_true] at hvj
  have hx0 : x + s = 0 := by
    field_simp at hvj
    linear_combination hvj - hneg 1
  exact hx2 (by rw [add_comm]; exact hx0)

end Quad.Mat
