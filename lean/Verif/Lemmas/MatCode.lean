import Verif.Lemmas.MatInv
import Mathlib.Algebra.Polynomial.Roots

/-!
# The generator matrices: Vandermonde and Cauchy
-/

namespace Quad.Mat
variable {K : Type} [Field K] {F : GF} [F.Plain] {S : F.Sim K} {R C : Nat} {M : Mat} {f : Nat → Nat → Nat}
open Finset Polynomial

theorem degree_C_mul_le' (a : K) (p : K[X]) : (Polynomial.C a * p).degree ≤ p.degree := by
  by_cases h : a = 0
  · simp [h]
  · rw [degree_C_mul h]


/-- `mul` computes the product of the matrix and the vector -/
theorem mul_sem (h : Is M R C f) (hC : 0 < C) (hv : ∀ i j, i < R → j < C → S.V (f i j)) {out v : Array Nat} (hs : v.size = C)
    (ho : out.size = R) (hx : ∀ j, j < C → S.V (gt v j)) :
    ∃ o, M.mul F out v = .ok o ∧ o.size = R ∧ ∀ i, i < R → S.V (gt o i) ∧
      S.φ (gt o i) = ∑ j ∈ range C, S.φ (f i j) * S.φ (gt v j) := by
  obtain ⟨o, e, h1, h2⟩ := h.mul F hs ho
  refine ⟨o, e, h1, fun i hi => ?_⟩
  rw [h2 i hi]
  have key : ∀ c, 0 < c → c ≤ C → S.V (Nat.rec (gt out i) (fun j y => if j = 0 then F.mul (f i 0) (gt v 0) else F.add y (F.mul (f i j) (gt v j))) c) ∧
      S.φ (Nat.rec (gt out i) (fun j y => if j = 0 then F.mul (f i 0) (gt v 0) else F.add y (F.mul (f i j) (gt v j))) c) =
        ∑ j ∈ range c, S.φ (f i j) * S.φ (gt v j) := by
    intro c
    induction c with
    | zero => intro h; omega
    | succ c ih =>
      intro _ hc
      have hm := S.mul (hv i c hi (by omega)) (hx c (by omega))
      by_cases h0 : c = 0
      · subst h0
        simp only [if_true, zero_add, sum_range_one]
        exact hm
      · have hi' := ih (by omega) (by omega)
        simp only [if_neg h0]
        have ha := S.add hi'.1 hm.1
        refine ⟨ha.1, ?_⟩
        rw [ha.2, hi'.2, hm.2, sum_range_succ]
  exact key C hC le_rfl

/-- a loop over the rows of one column -/
theorem Is.colLoop (h : Is M R C f) {j : Nat} (hj : j < C) {val : Nat → Mat → Res Nat} (g : Nat → Nat)
    (hb : ∀ t M', t < R → Is M' R C (fun i' j' => if j' = j ∧ i' < t then g i' else f i' j') → val t M' = .ok (g t)) :
    ∃ M', forN R M (fun t M => do let x ← val t M; M.set t j x) = .ok M' ∧
      Is M' R C (fun i' j' => if j' = j then g i' else f i' j') := by
  obtain ⟨M', e, i⟩ := forN_inv (f := fun t M => do let x ← val t M; M.set t j x) (s := M) (n := R)
    (I := fun k M' => Is M' R C (fun i' j' => if j' = j ∧ i' < k then g i' else f i' j'))
    (h.congr (fun i j _ _ => by simp)) (fun k M' hk hi => by
      rw [hb k M' hk hi]
      simp only [ok_bind]
      obtain ⟨M'', e, h'⟩ := hi.set hk hj (g k)
      refine ⟨M'', e, h'.congr fun a c _ _ => ?_⟩
      by_cases e1 : a = k ∧ c = j
      · rw [if_pos e1, if_pos (by omega), e1.1]
      · rw [if_neg e1]
        by_cases e2 : c = j ∧ a < k
        · rw [if_pos e2, if_pos (by omega)]
        · rw [if_neg e2, if_neg (by omega)])
  refine ⟨M', e, i.congr fun a c ha _ => ?_⟩
  by_cases e1 : c = j
  · rw [if_pos e1, if_pos ⟨e1, ha⟩]
  · rw [if_neg e1, if_neg (fun x => e1 x.1)]

/-- one turn of the reduction of the Vandermonde matrix: column `i` is divided by its entry in
row `i`, then used to clear row `i` in the other columns -/
theorem ecStep_spec (H : S.Full) (h : Is M R C f) (hv : ∀ i j, i < R → j < C → S.V (f i j)) {i : Nat} (hi : i < C) (hiR : i < R)
    (hne : S.φ (f i i) ≠ 0) :
    ∃ M' f', ecStep F i M = .ok M' ∧ Is M' R C f' ∧ (∀ i j, i < R → j < C → S.V (f' i j)) ∧
      ∀ t, t < R → S.φ (f' t i) = S.φ (f t i) / S.φ (f i i) ∧
        ∀ j, j < C → j ≠ i → S.φ (f' t j) = S.φ (f t j) - S.φ (f i j) * (S.φ (f t i) / S.φ (f i i)) := by
  unfold ecStep
  obtain ⟨r, er, hr⟩ := h.row_is_identity hiR
  rw [er]
  simp only [ok_bind]
  rcases r with _ | _
  swap
  · rw [if_pos rfl]
    have hI := hr.mp rfl
    refine ⟨M, f, rfl, h, hv, fun t ht => ⟨?_, fun j hj hji => ?_⟩⟩
    · rw [hI i hi, if_pos rfl, H.v1.2, div_one]
    · rw [hI j hj, if_neg hji, S.zero.2]; ring
  · rw [if_neg (by simp)]
    rw [h.get hiR hi]
    simp only [ok_bind]
    -- first transformation
    obtain ⟨M1, f1, e1, i1, v1, q1⟩ : ∃ M1 f1, (if 1 ≠ f i i then M.ec_transform1 F i else pure M) = .ok M1 ∧ Is M1 R C f1 ∧
        (∀ i j, i < R → j < C → S.V (f1 i j)) ∧ ∀ t, t < R → S.φ (f1 t i) = S.φ (f t i) / S.φ (f i i) ∧
          ∀ j, j < C → j ≠ i → f1 t j = f t j := by
      by_cases h1 : 1 ≠ f i i
      · rw [if_pos h1]
        unfold ec_transform1 cassert
        rw [h.rows, h.cols]
        simp only [hi, hiR, decide_true, if_true, ok_bind]
        rw [h.get hiR hi]
        simp only [ok_bind]
        obtain ⟨y, ey, hy, hyφ⟩ := S.inv (hv i i hiR hi) (H.u (hv i i hiR hi) hne)
        rw [ey]
        simp only [ok_bind]
        obtain ⟨M', e, i'⟩ := h.colLoop hi (val := fun t M => do let y' ← M.get t i; F.mulC y y') (fun t => F.mul y (f t i)) (by
          intro t M' ht hM
          rw [hM.get ht hi]
          simp only [ok_bind, lt_irrefl, and_false, if_false]
          exact H.mulC hy (hv t i ht hi))
        refine ⟨M', _, ?_, i', ?_, ?_⟩
        · simpa only [bind_assoc, pure_bind] using e
        · intro a c ha hc
          split
          · exact (S.mul hy (hv a i ha hi)).1
          · exact hv a c ha hc
        · intro t ht
          refine ⟨?_, fun j hj hne => by simp only [if_neg hne]⟩
          simp only [if_true]
          rw [(S.mul hy (hv t i ht hi)).2, hyφ]
          rw [div_eq_mul_inv, mul_comm]
      · rw [if_neg h1]
        have h1' : f i i = 1 := by omega
        exact ⟨M, f, rfl, h, hv, fun t ht => ⟨by rw [h1', H.v1.2, div_one], fun _ _ _ => rfl⟩⟩
    rw [e1]
    simp only [ok_bind]
    rw [i1.cols]
    -- the other columns
    obtain ⟨M2, e2, f2, i2, v2, q2⟩ := forN_inv (n := C) (s := M1)
      (f := fun j tmp => if i ≠ j then do
          let y ← tmp.get i j
          if 0 ≠ y then tmp.ec_transform2 F i j else pure tmp
        else pure tmp)
      (I := fun k M' => ∃ f', Is M' R C f' ∧ (∀ i j, i < R → j < C → S.V (f' i j)) ∧ ∀ t, t < R →
        f' t i = f1 t i ∧ (∀ j, j < C → k ≤ j → f' t j = f1 t j) ∧
        ∀ j, j < k → j ≠ i → S.φ (f' t j) = S.φ (f1 t j) - S.φ (f1 i j) * S.φ (f1 t i))
      ⟨f1, i1, v1, fun t ht => ⟨rfl, fun _ _ _ => rfl, fun j hj => by omega⟩⟩ (by
        rintro k M' hk ⟨f', i', v', q'⟩
        by_cases hik : i = k
        · subst hik
          rw [if_neg (by simp)]
          refine ⟨M', rfl, f', i', v', fun t ht => ⟨(q' t ht).1, fun j hj hj' => (q' t ht).2.1 j hj (by omega), fun j hj hne => ?_⟩⟩
          exact (q' t ht).2.2 j (by omega) hne
        · rw [if_pos hik, i'.get hiR hk]
          simp only [ok_bind]
          by_cases h0 : 0 ≠ f' i k
          · rw [if_pos h0]
            unfold ec_transform2 cassert
            rw [i'.rows, i'.cols]
            simp only [hi, hiR, decide_true, if_true, ok_bind]
            rw [i'.get hiR hk]
            simp only [ok_bind]
            obtain ⟨M'', e'', i''⟩ := i'.colLoop hk
              (val := fun t M => do
                let x ← M.get t k
                let y ← M.get t i
                let z ← F.mulC (f' i k) y
                pure (F.sub x z))
              (fun t => F.sub (f' t k) (F.mul (f' i k) (f' t i))) (by
                intro t M' ht hM
                rw [hM.get ht hk, hM.get ht hi]
                simp only [ok_bind, lt_irrefl, and_false, if_false]
                have hvi : S.V (if i = k ∧ t < t then F.sub (f' t k) (F.mul (f' i k) (f' t i)) else f' t i) := by simpa using v' t i ht hi
                simp only [lt_irrefl, and_false, if_false] at hvi
                rw [H.mulC (v' i k hiR hk) hvi]
                rfl)
            have hval : ∀ t, t < R → S.V (F.sub (f' t k) (F.mul (f' i k) (f' t i))) ∧
                S.φ (F.sub (f' t k) (F.mul (f' i k) (f' t i))) = S.φ (f' t k) - S.φ (f' i k) * S.φ (f' t i) := by
              intro t ht
              have hm := S.mul (v' i k hiR hk) (v' t i ht hi)
              have hs := S.sub (v' t k ht hk) hm.1
              exact ⟨hs.1, by rw [hs.2, hm.2]⟩
            refine ⟨M'', by simpa only [bind_assoc, pure_bind] using e'', _, i'', ?_, ?_⟩
            · intro a c ha hc
              split
              · exact (hval a ha).1
              · exact v' a c ha hc
            · intro t ht
              refine ⟨by rw [if_neg hik]; exact (q' t ht).1, fun j hj hj' => ?_, fun j hj hne => ?_⟩
              · rw [if_neg (by omega)]; exact (q' t ht).2.1 j hj (by omega)
              · by_cases a : j = k
                · subst a
                  rw [if_pos rfl, (hval t ht).2, (q' t ht).2.1 j hk le_rfl, (q' i hiR).2.1 j hk le_rfl, (q' t ht).1]
                · rw [if_neg a]; exact (q' t ht).2.2 j (by omega) hne
          · rw [if_neg h0]
            have h0' : f' i k = 0 := by omega
            refine ⟨M', rfl, f', i', v', fun t ht => ⟨(q' t ht).1, fun j hj hj' => (q' t ht).2.1 j hj (by omega), fun j hj hne => ?_⟩⟩
            by_cases a : j = k
            · subst a
              have : f1 i j = 0 := by rw [← (q' i hiR).2.1 j hk le_rfl]; exact h0'
              rw [(q' t ht).2.1 j hk le_rfl, this, S.zero.2]; ring
            · exact (q' t ht).2.2 j (by omega) hne)
    refine ⟨M2, f2, e2, i2, v2, fun t ht => ⟨?_, fun j hj hne => ?_⟩⟩
    · rw [(q2 t ht).1]; exact (q1 t ht).1
    · rw [(q2 t ht).2.2 j hj hne, (q1 t ht).2 j hj hne, (q1 i hiR).2 j hj hne, (q1 t ht).1]

open Classical in
/-- `vandermonde_suitable_for_ec` on a matrix of `m` rows and `k` columns: entry `(i, j)` is the value at the
point `k + i` of the polynomial of degree below `k` that is 1 at the point `j` and 0 at the others
among `0 .. k-1` -/
theorem vandermonde_ec_spec (H : S.Full) {m k : Nat} (h : Is M m k f) (hV : ∀ t, t < m + k → S.V t) (mem : Nat → Nat) :
    ∃ M' f', M.vandermonde_suitable_for_ec F mem = .ok M' ∧ Is M' m k f' ∧ (∀ i j, i < m → j < k → S.V (f' i j)) ∧
      ∃ p : Nat → K[X], (∀ j, j < k → (p j).degree < k ∧ ∀ t, t < k → (p j).eval (S.φ t) = if t = j then 1 else 0) ∧
        ∀ i j, i < m → j < k → S.φ (f' i j) = (p j).eval (S.φ (k + i)) := by
  unfold vandermonde_suitable_for_ec
  rw [h.rows, h.cols]
  obtain ⟨M0, e0, i0⟩ := (mk'_is (m + k) k mem).vandermonde F (fun i j hi _ => H.expC j (hV i hi))
  rw [e0]
  simp only [ok_bind]
  have hinj : ∀ s t, s < m + k → t < m + k → S.φ s = S.φ t → s = t := fun s t hs ht e => H.inj (hV s hs) (hV t ht) e
  obtain ⟨M1, e1, f1, i1, v1, p, hp1, hp2, hp3⟩ := forN_inv (n := k) (s := M0) (f := fun i tmp => ecStep F i tmp)
    (I := fun i M' => ∃ f', Is M' (m + k) k f' ∧ (∀ i j, i < m + k → j < k → S.V (f' i j)) ∧
      ∃ p : Nat → K[X], (∀ t j, t < m + k → j < k → S.φ (f' t j) = (p j).eval (S.φ t)) ∧
        (∀ j, j < i → (p j).degree < i ∧ ∀ t, t < i → (p j).eval (S.φ t) = if t = j then 1 else 0) ∧
        ∀ j, i ≤ j → j < k → (p j).degree = j ∧ ∀ t, t < i → (p j).eval (S.φ t) = 0)
    ⟨_, i0, fun i j hi hj => (S.exp (hV i hi)).1, fun j => X ^ j,
      fun t j ht hj => by rw [(S.exp (hV t ht)).2]; simp, fun j hj => by omega,
      fun j _ hj => ⟨by simp, fun t ht => by omega⟩⟩ (by
      rintro i M' hi ⟨f', i', v', p, hp1, hp2, hp3⟩
      obtain ⟨hdi, hzi⟩ := hp3 i le_rfl hi
      have hpi0 : p i ≠ 0 := fun e => by rw [e, degree_zero] at hdi; exact absurd hdi (by simp)
      have hev : (p i).eval (S.φ i) ≠ 0 := by
        intro hz
        apply hpi0
        refine eq_zero_of_natDegree_lt_card_of_eval_eq_zero' (p i) ((range (i + 1)).image S.φ) ?_ ?_
        · intro x hx
          obtain ⟨t, ht, rfl⟩ := mem_image.mp hx
          rw [mem_range] at ht
          by_cases a : t = i
          · rw [a]; exact hz
          · exact hzi t (by omega)
        · rw [card_image_of_injOn, card_range, natDegree_eq_of_degree_eq_some hdi]
          · omega
          · intro s hs t ht e
            simp only [coe_range, Set.mem_Iio] at hs ht
            exact hinj s t (by omega) (by omega) e
      have hne : S.φ (f' i i) ≠ 0 := by rw [hp1 i i (by omega) hi]; exact hev
      obtain ⟨M'', f'', e'', i'', v'', q⟩ := ecStep_spec H i' v' hi (show i < m + k by omega) hne
      let c : K := S.φ (f' i i)
      let pi' : K[X] := Polynomial.C (1 / c) * p i
      let p' : Nat → K[X] := fun j => if j = i then pi' else p j - Polynomial.C (S.φ (f' i j)) * pi'
      have hpi'e : ∀ x, pi'.eval x = (p i).eval x / c := fun x => by simp only [pi', eval_mul, eval_C]; ring
      have hcne : (1 / c : K) ≠ 0 := one_div_ne_zero hne
      have hpi'd : pi'.degree = i := by simp only [pi']; rw [degree_C_mul hcne]; exact hdi
      have hpi'z : ∀ t, t < i → pi'.eval (S.φ t) = 0 := fun t ht => by rw [hpi'e, hzi t ht, zero_div]
      have hpi'1 : pi'.eval (S.φ i) = 1 := by rw [hpi'e, ← hp1 i i (by omega) hi]; exact div_self hne
      have hCd : ∀ a : K, (Polynomial.C a * pi').degree ≤ i := fun a => by
        refine (degree_C_mul_le' a pi').trans ?_
        rw [hpi'd]
      refine ⟨M'', e'', f'', i'', v'', p', ?_, ?_, ?_⟩
      · intro t j ht hj
        obtain ⟨q1, q2⟩ := q t ht
        by_cases a : j = i
        · subst a
          simp only [p', if_true]
          rw [q1, hpi'e, hp1 t j ht hj]
        · simp only [p', if_neg a]
          rw [q2 j hj a, eval_sub, eval_mul, eval_C, hpi'e, hp1 t j ht hj, hp1 t i ht hi]
      · intro j hj
        by_cases a : j = i
        · subst a
          simp only [p', if_true]
          refine ⟨by rw [hpi'd]; exact_mod_cast Nat.lt_succ_self j, fun t ht => ?_⟩
          by_cases b : t = j
          · rw [b, if_pos rfl]; exact hpi'1
          · rw [if_neg b]; exact hpi'z t (by omega)
        · simp only [p', if_neg a]
          obtain ⟨d1, d2⟩ := hp2 j (by omega)
          refine ⟨?_, fun t ht => ?_⟩
          · refine lt_of_le_of_lt (degree_sub_le _ _) (max_lt (d1.trans ?_) (lt_of_le_of_lt (hCd _) ?_))
            · exact_mod_cast Nat.lt_succ_self i
            · exact_mod_cast Nat.lt_succ_self i
          · rw [eval_sub, eval_mul, eval_C]
            by_cases b : t = i
            · subst b
              rw [hpi'1, hp1 t j (by omega) (by omega), if_neg (Ne.symm a)]; ring
            · rw [hpi'z t (by omega), d2 t (by omega)]; ring
      · intro j hj hjk
        simp only [p', if_neg (show j ≠ i by omega)]
        obtain ⟨d1, d2⟩ := hp3 j (by omega) hjk
        refine ⟨?_, fun t ht => ?_⟩
        · rw [degree_sub_eq_left_of_degree_lt]
          · exact d1
          · rw [d1]
            refine lt_of_le_of_lt (hCd _) ?_
            exact_mod_cast (show i < j by omega)
        · rw [eval_sub, eval_mul, eval_C]
          by_cases b : t = i
          · subst b
            rw [hpi'1, hp1 t j (by omega) hjk]; ring
          · rw [hpi'z t (by omega), d2 t (by omega)]; ring)
  rw [e1]
  simp only [ok_bind]
  obtain ⟨M2, e2, i2⟩ := h.fillSet (v := fun i j M => M1.get (M.n_cols + i) j) (fun i j => f1 (k + i) j) (by
    intro i j M' hi hj hM
    rw [hM.cols, i1.get (by omega) hj])
  refine ⟨M2, _, e2, i2, fun i j hi hj => v1 (k + i) j (by omega) hj, p, fun j hj => hp2 j hj, fun i j hi hj => hp1 (k + i) j (by omega) hj⟩

/-- the rows `ids` of `[I ; A]` -/
def pick (k : Nat) (f : Nat → Nat → Nat) (ids : Nat → Nat) : Nat → Nat → Nat :=
  fun a j => if ids a < k then (if j = ids a then 1 else 0) else f (ids a - k) j

/-- Any `k` distinct rows of `[I ; A]` are independent. -/
def MDS {F : GF} (S : F.Sim K) (m k : Nat) (f : Nat → Nat → Nat) : Prop :=
  ∀ ids : Nat → Nat, (∀ a, a < k → ids a < k + m) → (∀ a b, a < k → b < k → ids a = ids b → a = b) →
    IsUnit (toM S k (pick k f ids)).det

theorem isUnit_det_of_ker {n : Nat} (A : Matrix (Fin n) (Fin n) K) (h : ∀ v, A.mulVec v = 0 → v = 0) : IsUnit A.det := by
  rw [isUnit_iff_ne_zero]
  intro h0
  obtain ⟨v, hv, hz⟩ := Matrix.exists_mulVec_eq_zero_iff.mpr h0
  exact hv (h v hz)

open Classical in
/-- a matrix of Lagrange polynomials at further points generates an MDS code -/
theorem mds_of_lagrange (H : S.Full) {m k : Nat} {f : Nat → Nat → Nat} (hV : ∀ t, t < m + k → S.V t) {p : Nat → K[X]}
    (hp : ∀ j, j < k → (p j).degree < k ∧ ∀ t, t < k → (p j).eval (S.φ t) = if t = j then 1 else 0)
    (hf : ∀ i j, i < m → j < k → S.φ (f i j) = (p j).eval (S.φ (k + i))) : MDS S m k f := by
  intro ids h1 h2
  apply isUnit_det_of_ker
  intro v hv
  let P : K[X] := ∑ j : Fin k, Polynomial.C (v j) * p j
  have hent : ∀ a j : Fin k, toM S k (pick k f ids) a j = (p j).eval (S.φ (ids a)) := by
    intro a j
    unfold toM pick
    rw [Matrix.of_apply]
    have := h1 a.1 a.2
    by_cases c : ids a < k
    · rw [if_pos c, (hp j.1 j.2).2 _ c]
      by_cases d : j.1 = ids a
      · rw [if_pos d, if_pos d.symm, H.v1.2]
      · rw [if_neg d, if_neg (Ne.symm d), S.zero.2]
    · rw [if_neg c, hf _ _ (by omega) j.2, show k + (ids a - k) = ids a by omega]
  have hz : ∀ a, a < k → P.eval (S.φ (ids a)) = 0 := by
    intro a ha
    have := congrFun hv ⟨a, ha⟩
    rw [Matrix.mulVec, dotProduct] at this
    simp only [hent] at this
    simp only [P, eval_finset_sum, eval_mul, eval_C]
    rw [← show _ = (0 : K) from this]
    exact sum_congr rfl fun j _ => mul_comm _ _
  have hd : P.degree < k := by
    refine lt_of_le_of_lt (degree_sum_le _ _) ?_
    rw [Finset.sup_lt_iff]
    · intro j _
      exact lt_of_le_of_lt (degree_C_mul_le' _ _) (hp j.1 j.2).1
    · exact WithBot.bot_lt_coe k
  have hP : P = 0 := by
    by_contra hne
    apply hne
    refine eq_zero_of_natDegree_lt_card_of_eval_eq_zero' P ((range k).image (fun a => S.φ (ids a))) ?_ ?_
    · intro x hx
      obtain ⟨a, ha, rfl⟩ := mem_image.mp hx
      exact hz a (mem_range.mp ha)
    · rw [card_image_of_injOn, card_range]
      · rw [natDegree_lt_iff_degree_lt hne]; exact hd
      · intro a ha b hb e
        simp only [coe_range, Set.mem_Iio] at ha hb
        have := h1 a ha
        have := h1 b hb
        exact h2 a b ha hb (H.inj (hV _ (by omega)) (hV _ (by omega)) e)
  funext t
  have ht := t.2
  have : P.eval (S.φ t) = v t := by
    simp only [P, eval_finset_sum, eval_mul, eval_C]
    rw [sum_eq_single t]
    · rw [(hp t.1 t.2).2 t.1 t.2, if_pos rfl, mul_one]
    · intro j _ hne
      rw [(hp j.1 j.2).2 t.1 t.2, if_neg (fun e => hne (Fin.ext e.symm)), mul_zero]
    · intro h; exact absurd (mem_univ _) h
  rw [← this, hP, eval_zero, Pi.zero_apply]

end Quad.Mat
