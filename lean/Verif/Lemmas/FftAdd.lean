import Verif.Lemmas.Taylor

/-!
# The additive transform
-/

namespace Quad
open Finset Polynomial

namespace Additive
variable {K : Type} [Field K]

/-! ### linear spans -/

/-- the sum of the `β j` over the bits `j` of `i` -/
def span (β : Nat → K) (m i : Nat) : K := ∑ j ∈ range m, if i.testBit j then β j else 0

/-- the `2^m` sums are different from zero, but the empty one -/
def Indep (β : Nat → K) (m : Nat) : Prop := ∀ i, i < 2 ^ m → i ≠ 0 → span β m i ≠ 0

theorem span_congr {β γ : Nat → K} {m : Nat} (h : ∀ j, j < m → β j = γ j) (i : Nat) : span β m i = span γ m i :=
  sum_congr rfl fun j hj => by rw [h j (mem_range.mp hj)]

theorem span_zero (β : Nat → K) (m : Nat) : span β m 0 = 0 := by simp [span]

theorem span_xor [CharP K 2] (β : Nat → K) (m i i' : Nat) : span β m (i ^^^ i') = span β m i + span β m i' := by
  unfold span
  rw [← sum_add_distrib]
  refine sum_congr rfl fun j _ => ?_
  rw [Nat.testBit_xor]
  cases i.testBit j <;> cases i'.testBit j <;> simp [CharTwo.add_self_eq_zero]

theorem span_pow (β : Nat → K) {m d : Nat} (hd : d < m) : span β m (2 ^ d) = β d := by
  unfold span
  rw [sum_eq_single d]
  · rw [if_pos (Nat.testBit_two_pow_self)]
  · intro j _ hj
    rw [if_neg]
    rw [Nat.testBit_two_pow_of_ne (Ne.symm hj)]; simp
  · intro h; exact absurd (mem_range.mpr hd) h

theorem span_succ_low (β : Nat → K) {m i : Nat} (h : i < 2 ^ m) : span β (m + 1) i = span β m i := by
  unfold span
  rw [sum_range_succ, if_neg, add_zero]
  rw [Nat.testBit_lt_two_pow h]; simp

theorem xor_pow {i m : Nat} (h : i < 2 ^ m) : i ^^^ 2 ^ m = i + 2 ^ m := by
  have e := Nat.two_pow_add_eq_or_of_lt h 1
  rw [mul_one] at e
  rw [add_comm, e]
  refine Nat.eq_of_testBit_eq fun j => ?_
  rw [Nat.testBit_xor, Nat.testBit_or]
  by_cases hj : j = m
  · rw [hj, Nat.testBit_lt_two_pow h]; simp
  · rw [Nat.testBit_two_pow_of_ne (Ne.symm hj)]; simp

theorem eq_of_xor {i j : Nat} (h : i ^^^ j = 0) : i = j := by
  refine Nat.eq_of_testBit_eq fun t => ?_
  have : (i ^^^ j).testBit t = false := by rw [h]; simp
  rw [Nat.testBit_xor] at this
  revert this
  cases i.testBit t <;> cases j.testBit t <;> simp

theorem span_inj [CharP K 2] {β : Nat → K} {m : Nat} (h : Indep β m) {i i' : Nat} (hi : i < 2 ^ m) (hi' : i' < 2 ^ m)
    (e : span β m i = span β m i') : i = i' := by
  by_contra hne
  refine h (i ^^^ i') (Nat.xor_lt_two_pow hi hi') (fun h0 => hne (eq_of_xor h0)) ?_
  rw [span_xor, e, CharTwo.add_self_eq_zero]

theorem span_mul (c : K) (β : Nat → K) (m i : Nat) : span (fun j => c * β j) m i = c * span β m i := by
  unfold span
  rw [mul_sum]
  refine sum_congr rfl fun j _ => ?_
  split <;> simp

theorem span_sq [CharP K 2] (β : Nat → K) (m i : Nat) : span (fun j => β j ^ 2 + β j) m i = span β m i ^ 2 + span β m i := by
  induction m with
  | zero => simp [span]
  | succ m ih =>
    have e : ∀ γ : Nat → K, span γ (m + 1) i = span γ m i + if i.testBit m then γ m else 0 := fun γ => by
      unfold span; rw [sum_range_succ]
    rw [e, e, ih, CharTwo.add_sq]
    split
    · ring
    · ring

/-- the basis of the next level -/
def gam (β : Nat → K) (m : Nat) (j : Nat) : K := (β m)⁻¹ * β j
def del (β : Nat → K) (m : Nat) (j : Nat) : K := gam β m j ^ 2 + gam β m j

theorem Indep.ne {β : Nat → K} {m d : Nat} (h : Indep β m) (hd : d < m) : β d ≠ 0 := by
  have := h (2 ^ d) (Nat.pow_lt_pow_right (by omega) hd) (by positivity)
  rwa [span_pow β hd] at this

theorem span_high [CharP K 2] (β : Nat → K) {m i : Nat} (h : i < 2 ^ m) : span β (m + 1) (i + 2 ^ m) = span β m i + β m := by
  rw [← xor_pow h, span_xor, span_pow β (by omega), span_succ_low β h]

theorem Indep.del [CharP K 2] {β : Nat → K} {m : Nat} (h : Indep β (m + 1)) : Indep (del β m) m := by
  intro i hi h0 hz
  have hb : β m ≠ 0 := h.ne (by omega)
  unfold Additive.del at hz
  rw [span_sq] at hz
  have hx : β m * span (gam β m) m i = span β m i := by
    unfold gam; rw [span_mul, ← mul_assoc, mul_inv_cancel₀ hb, one_mul]
  have : span (gam β m) m i * (span (gam β m) m i + 1) = 0 := by rw [← hz]; ring
  rcases mul_eq_zero.mp this with h1 | h1
  · rw [h1, mul_zero] at hx
    exact h i (by rw [pow_succ]; omega) h0 (by rw [span_succ_low β hi, ← hx])
  · have h2 : span (gam β m) m i = 1 := by
      rw [← sub_eq_zero, CharTwo.sub_eq_add, h1]
    rw [h2, mul_one] at hx
    refine h (i + 2 ^ m) (by rw [pow_succ]; omega) (by have : 0 < 2 ^ m := by positivity
                                                       omega) ?_
    rw [span_high β hi, ← hx, CharTwo.add_self_eq_zero]

variable {F : GF} [F.Plain] {S : F.Sim K}

/-! ### the constructor -/

/-- `Ls` is the chain of objects for the basis `β 0 .. β m` -/
def Chain (S : F.Sim K) : List Level → Nat → (Nat → K) → Prop
  | L :: Ls, m, β => L.m = m + 1 ∧ L.n = 2 ^ (m + 1) ∧ L.m_k = 2 ^ m ∧ L.betas.size = m + 1 ∧
      (∀ i, i < m + 1 → S.V (gt L.betas i) ∧ S.φ (gt L.betas i) = β i) ∧
      (S.V L.beta_1 ∧ S.φ L.beta_1 = β 0) ∧ (S.V L.inv_beta_1 ∧ S.φ L.inv_beta_1 = (β 0)⁻¹) ∧
      (S.V L.beta_m ∧ S.φ L.beta_m = β m) ∧ (S.V L.inv_beta_m ∧ S.φ L.inv_beta_m = (β m)⁻¹) ∧
      L.beta_m_powers.size = 2 ^ (m + 1) ∧
      (∀ i, i < 2 ^ (m + 1) → S.V (gt L.beta_m_powers i) ∧ S.φ (gt L.beta_m_powers i) = β m ^ i) ∧
      match m with
      | 0 => True
      | m' + 1 => L.G.size = 2 ^ (m' + 1) ∧
        (∀ i, i < 2 ^ (m' + 1) → S.V (gt L.G i) ∧ S.φ (gt L.G i) = span (gam β (m' + 1)) (m' + 1) i) ∧
        Chain S Ls m' (del β (m' + 1))
  | [], _, _ => False

theorem compute_beta_m_powers_spec (hF : S.Full) {n beta_m : Nat} (hn : 2 ≤ n) (hb : S.V beta_m) (mem : Nat → Nat) :
    ∃ P, compute_beta_m_powers F n beta_m mem = .ok P ∧ P.size = n ∧ ∀ i, i < n → S.V (gt P i) ∧ S.φ (gt P i) = S.φ beta_m ^ i := by
  unfold compute_beta_m_powers
  rw [wr_ok (by simp; omega), ok_bind, wr_ok (by simp; omega), ok_bind]
  obtain ⟨P0, hP0⟩ : ∃ P0, P0 = ((fresh mem n).setIfInBounds 0 1).setIfInBounds 1 beta_m := ⟨_, rfl⟩
  have hs0 : P0.size = n := by rw [hP0]; simp
  have g0 : gt P0 0 = 1 := by rw [hP0, gt_set (by simp; omega), if_neg (by omega), gt_set (by simp; omega), if_pos rfl]
  have g1 : gt P0 1 = beta_m := by rw [hP0, gt_set (by simp; omega), if_pos rfl]
  rw [← hP0]
  obtain ⟨⟨x, P⟩, e, h1, h2, h3⟩ := forN_inv (n := n - 2) (s := (beta_m, P0)) (f := fun s st => do
      let beta := F.mul st.1 beta_m
      let P ← wr st.2 (s + 2) beta
      pure (beta, P))
    (I := fun s (st : Nat × Array Nat) => (S.V st.1 ∧ S.φ st.1 = S.φ beta_m ^ (s + 1)) ∧ st.2.size = n ∧
      ∀ i, i < s + 2 → S.V (gt st.2 i) ∧ S.φ (gt st.2 i) = S.φ beta_m ^ i)
    ⟨⟨hb, by simp⟩, hs0, fun i hi => by
      rcases (show i = 0 ∨ i = 1 by omega) with rfl | rfl
      · rw [g0]; exact ⟨hF.v1.1, by rw [hF.v1.2, pow_zero]⟩
      · rw [g1]; exact ⟨hb, by simp⟩⟩ (by
      rintro s ⟨y, P⟩ hs ⟨⟨i1, i1'⟩, i2, i3⟩
      simp only at i1 i1' i2 i3 ⊢
      have hm := S.mul i1 hb
      have hm2 : S.φ (F.mul y beta_m) = S.φ beta_m ^ (s + 1 + 1) := by rw [hm.2, i1', pow_succ _ (s + 1)]
      refine ⟨_, by rw [wr_ok (by omega), ok_bind]; rfl, ⟨hm.1, hm2⟩, by simpa using i2, fun i hi => ?_⟩
      simp only
      rw [gt_set (by omega)]
      split
      · rename_i h; rw [h]; exact ⟨hm.1, hm2⟩
      · exact i3 i (by omega))
  rw [e]
  exact ⟨P, rfl, h2, fun i hi => h3 i (by omega)⟩

theorem gt_push {a : Array Nat} {x i : Nat} : gt (a.push x) i = if i = a.size then x else gt a i := by
  unfold gt
  by_cases h : i = a.size
  · rw [if_pos h]; simp [h]
  · rw [if_neg h]
    by_cases h2 : i < a.size
    · simp [Array.getD, h2, Array.getElem_push, show i < a.size + 1 by omega]
    · simp [Array.getD, h2, show ¬ i < a.size + 1 by omega]

theorem compute_subspace_spec [CharP K 2] (hadd : ∀ x y, F.add x y = x ^^^ y) {b dim : Nat} {basis sub : Array Nat} (mem : Nat → Nat)
    (hdim : basis.size = dim) (hb : dim < b) (hsub : sub.size = 2 ^ dim) (hV : ∀ i, i < dim → S.V (gt basis i)) :
    ∃ r, compute_subspace F b basis sub mem = .ok r ∧ r.size = 2 ^ dim ∧
      ∀ i, i < 2 ^ dim → S.V (gt r i) ∧ S.φ (gt r i) = span (fun j => S.φ (gt basis j)) dim i := by
  obtain ⟨β, hβ⟩ : ∃ β : Nat → K, β = fun j => S.φ (gt basis j) := ⟨_, rfl⟩
  rw [← hβ]
  have hpos : ∀ e, 0 < 2 ^ e := fun e => by positivity
  unfold compute_subspace
  simp only [hdim, Arith.exp2_eq hb, ok_bind, cassert, hsub, decide_true, if_true]
  obtain ⟨p2, ep, sp, hp⟩ := forN_inv (n := dim) (s := fresh mem dim) (f := fun i p => do
      let e ← Arith.exp2 b i
      wr p i e)
    (I := fun k (p : Array Nat) => p.size = dim ∧ ∀ i, i < k → gt p i = 2 ^ i)
    ⟨by simp, fun i hi => by omega⟩ (by
      rintro k p hk ⟨i1, i2⟩
      refine ⟨_, by rw [Arith.exp2_eq (by omega), ok_bind, wr_ok (by omega)], by simpa using i1, fun i hi => ?_⟩
      rw [gt_set (by omega)]
      split
      · rename_i h; rw [h]
      · exact i2 i (by omega))
  rw [ep, ok_bind, wr_ok (by rw [hsub]; exact hpos _), ok_bind]
  obtain ⟨sub0, hsub0⟩ : ∃ sub0, sub0 = sub.setIfInBounds 0 0 := ⟨_, rfl⟩
  have hs0 : sub0.size = 2 ^ dim := by rw [hsub0]; simpa using hsub
  rw [← hsub0]
  obtain ⟨⟨ids, val, r⟩, er, h1, h2, h3, h4, h5, h6, h7⟩ := forN_inv (n := dim) (s := (#[0], 0, sub0)) (f := fun i st =>
      forN (2 ^ i) st (fun s st => do
        let x ← rd st.1 (2 ^ i - 1 - s)
        let p ← rd p2 i
        let back ← rd st.1 (st.1.size - 1)
        let diff ← Arith.log2 ((F.add (F.add x p) back : Nat) : Int)
        let y ← rd basis diff
        let sub ← wr st.2.2 (F.add x p) (F.add st.2.1 y)
        pure (st.1.push (F.add x p), F.add st.2.1 y, sub)))
    (I := fun i (st : Array Nat × Nat × Array Nat) => st.1.size = 2 ^ i ∧ st.2.2.size = 2 ^ dim ∧
      (∀ j, j < 2 ^ i → gt st.1 j < 2 ^ i) ∧ (∀ j, j + 1 < 2 ^ i → ∃ d, d < i ∧ gt st.1 j ^^^ gt st.1 (j + 1) = 2 ^ d) ∧
      (S.V st.2.1 ∧ S.φ st.2.1 = span β dim (gt st.1 (2 ^ i - 1))) ∧ (∀ x, x < 2 ^ i → ∃ j, j < 2 ^ i ∧ gt st.1 j = x) ∧
      (∀ j, j < 2 ^ i → S.V (gt st.2.2 (gt st.1 j)) ∧ S.φ (gt st.2.2 (gt st.1 j)) = span β dim (gt st.1 j)))
    (by
      have hg : gt #[0] 0 = 0 := rfl
      refine ⟨rfl, hs0, fun j hj => ?_, fun j hj => ?_, ⟨S.zero.1, ?_⟩, fun x hx => ?_, fun j hj => ?_⟩
      · obtain rfl : j = 0 := by simpa using hj
        rw [hg]; norm_num
      · norm_num at hj
      · simp only [pow_zero, Nat.sub_self, hg, span_zero]; exact S.zero.2
      · exact ⟨0, by norm_num, by rw [hg]; exact (Nat.lt_one_iff.mp hx).symm⟩
      · obtain rfl : j = 0 := by simpa using hj
        simp only
        rw [hg, hsub0, gt_set (by rw [hsub]; exact hpos _), if_pos rfl, span_zero]; exact S.zero) (by
      rintro i ⟨ids, val, sb⟩ hi ⟨i1, i2, i3, i4, i5, i6, i7⟩
      simp only at i1 i2 i3 i4 i5 i6 i7 ⊢
      have hpi := hpos i
      have hle : 2 ^ (i + 1) ≤ 2 ^ dim := Nat.pow_le_pow_right (by omega) (by omega)
      have hps : 2 ^ (i + 1) = 2 * 2 ^ i := pow_succ' 2 i
      obtain ⟨⟨ids', val', sb'⟩, e', j1, j2, j3, j4, j5, j6⟩ := forN_inv (n := 2 ^ i) (s := (ids, val, sb)) (f := fun s st => do
          let x ← rd st.1 (2 ^ i - 1 - s)
          let p ← rd p2 i
          let back ← rd st.1 (st.1.size - 1)
          let diff ← Arith.log2 ((F.add (F.add x p) back : Nat) : Int)
          let y ← rd basis diff
          let sub ← wr st.2.2 (F.add x p) (F.add st.2.1 y)
          pure (st.1.push (F.add x p), F.add st.2.1 y, sub))
        (I := fun s (st : Array Nat × Nat × Array Nat) => st.1.size = 2 ^ i + s ∧ st.2.2.size = 2 ^ dim ∧
          (∀ j, j < 2 ^ i → gt st.1 j = gt ids j) ∧ (∀ t, t < s → gt st.1 (2 ^ i + t) = gt ids (2 ^ i - 1 - t) ^^^ 2 ^ i) ∧
          (S.V st.2.1 ∧ S.φ st.2.1 = span β dim (gt st.1 (2 ^ i + s - 1))) ∧
          (∀ j, j < 2 ^ i + s → S.V (gt st.2.2 (gt st.1 j)) ∧ S.φ (gt st.2.2 (gt st.1 j)) = span β dim (gt st.1 j)))
        ⟨i1, i2, fun j _ => rfl, fun t ht => by omega, i5, i7⟩ (by
          rintro s ⟨ids', val', sb'⟩ hs ⟨j1, j2, j3, j4, j5, j6⟩
          simp only at j1 j2 j3 j4 j5 j6 ⊢
          have hx := i3 (2 ^ i - 1 - s) (by omega)
          have hid : gt ids' (2 ^ i - 1 - s) ^^^ 2 ^ i < 2 ^ dim := by
            rw [j3 _ (by omega), xor_pow hx]; omega
          -- the bit that changes
          have hd : ∃ d, d < dim ∧ (gt ids' (2 ^ i - 1 - s) ^^^ 2 ^ i) ^^^ gt ids' (2 ^ i + s - 1) = 2 ^ d := by
            by_cases h0 : s = 0
            · subst h0
              refine ⟨i, hi, ?_⟩
              rw [Nat.add_zero, Nat.sub_zero, Nat.xor_comm (gt ids' (2 ^ i - 1)) (2 ^ i), Nat.xor_assoc, Nat.xor_self, Nat.xor_zero]
            · obtain ⟨d, hd, ed⟩ := i4 (2 ^ i - 1 - s) (by omega)
              refine ⟨d, by omega, ?_⟩
              rw [j3 _ (by omega), show 2 ^ i + s - 1 = 2 ^ i + (s - 1) by omega, j4 _ (by omega),
                show 2 ^ i - 1 - (s - 1) = 2 ^ i - 1 - s + 1 by omega, ← ed,
                Nat.xor_comm (gt ids (2 ^ i - 1 - s + 1)) (2 ^ i), Nat.xor_assoc, ← Nat.xor_assoc (2 ^ i) (2 ^ i), Nat.xor_self, Nat.zero_xor]
          obtain ⟨d, hd, ed⟩ := hd
          have hval := S.add j5.1 (hV d hd)
          have hφ : S.φ (F.add val' (gt basis d)) = span β dim (gt ids' (2 ^ i - 1 - s) ^^^ 2 ^ i) := by
            rw [hval.2, j5.2, show S.φ (gt basis d) = span β dim (2 ^ d) by rw [span_pow β hd, hβ], ← ed, ← span_xor]
            congr 1
            rw [Nat.xor_comm, Nat.xor_assoc, Nat.xor_self, Nat.xor_zero]
          refine ⟨_, by
            rw [rd_gt (by omega), ok_bind, rd_gt (by omega), ok_bind, rd_gt (by omega), ok_bind, hp i hi, hadd, hadd, j1, ed,
              Arith.log2_eq (hpos d), ok_bind, Nat.log_pow (by omega), rd_gt (by omega), ok_bind, wr_ok (by omega), ok_bind]
            rfl, by simp [j1]; omega, by simpa using j2, fun j hj => ?_, fun t ht => ?_, ⟨hval.1, ?_⟩, fun j hj => ?_⟩
          · simp only
            rw [gt_push, if_neg (by omega), j3 j hj]
          · simp only
            rw [gt_push]
            split
            · rw [j3 _ (by omega), show t = s by omega]
            · exact j4 t (by omega)
          · simp only
            rw [gt_push, if_pos (by omega), hφ]
          · simp only
            rw [gt_push]
            split
            · rw [gt_set (by omega), if_pos rfl]; exact ⟨hval.1, hφ⟩
            · rw [gt_set (by omega)]
              split
              · rename_i h; rw [h]; exact ⟨hval.1, hφ⟩
              · exact j6 j (by omega))
      simp only at j1 j2 j3 j4 j5 j6
      have j4' : ∀ j, 2 ^ i ≤ j → j < 2 ^ (i + 1) → gt ids' j = gt ids (2 ^ (i + 1) - 1 - j) ^^^ 2 ^ i := by
        intro j h1 h2
        have := j4 (j - 2 ^ i) (by omega)
        rw [show 2 ^ i + (j - 2 ^ i) = j by omega] at this
        rw [this]; congr 2; omega
      refine ⟨(ids', val', sb'), e', by simp only; omega, j2, fun j hj => ?_, fun j hj => ?_, ⟨j5.1, ?_⟩, fun x hx => ?_, fun j hj => j6 j (by omega)⟩
      · simp only
        by_cases h : j < 2 ^ i
        · rw [j3 j h]; have := i3 j h; omega
        · rw [j4' j (by omega) hj, xor_pow (i3 _ (by omega))]
          have := i3 (2 ^ (i + 1) - 1 - j) (by omega)
          omega
      · simp only
        by_cases h : j + 1 < 2 ^ i
        · obtain ⟨d, hd, ed⟩ := i4 j h
          exact ⟨d, by omega, by rw [j3 j (by omega), j3 _ h, ed]⟩
        · by_cases h' : j + 1 = 2 ^ i
          · refine ⟨i, by omega, ?_⟩
            rw [j3 j (by omega), j4' (j + 1) (by omega) hj, show 2 ^ (i + 1) - 1 - (j + 1) = j by omega, ← Nat.xor_assoc, Nat.xor_self, Nat.zero_xor]
          · obtain ⟨d, hd, ed⟩ := i4 (2 ^ (i + 1) - 1 - (j + 1)) (by omega)
            refine ⟨d, by omega, ?_⟩
            rw [j4' j (by omega) (by omega), j4' (j + 1) (by omega) hj, ← ed, show 2 ^ (i + 1) - 1 - (j + 1) + 1 = 2 ^ (i + 1) - 1 - j by omega,
              Nat.xor_comm (gt ids (2 ^ (i + 1) - 1 - (j + 1))) (2 ^ i), Nat.xor_assoc, ← Nat.xor_assoc (2 ^ i) (2 ^ i), Nat.xor_self, Nat.zero_xor,
              Nat.xor_comm]
      · simp only
        rw [j5.2]; congr 2; omega
      · by_cases h : x < 2 ^ i
        · obtain ⟨j, hj, ej⟩ := i6 x h
          exact ⟨j, by omega, by simp only; rw [j3 j hj, ej]⟩
        · obtain ⟨j, hj, ej⟩ := i6 (x - 2 ^ i) (by omega)
          refine ⟨2 ^ (i + 1) - 1 - j, by omega, ?_⟩
          simp only
          rw [j4' _ (by omega) (by omega), show 2 ^ (i + 1) - 1 - (2 ^ (i + 1) - 1 - j) = j by omega, ej, xor_pow (by omega)]
          omega)
  simp only at h1 h2 h3 h4 h5 h6 h7
  refine ⟨r, by rw [er]; rfl, h2, fun i hi => ?_⟩
  obtain ⟨j, hj, ej⟩ := h6 i hi
  have := h7 j hj
  rwa [ej] at this


theorem mkB_spec [CharP K 2] (hF : S.Full) (hadd : ∀ x y, F.add x y = x ^^^ y) {b : Nat} (mem : Nat → Nat) :
    ∀ (m : Nat) (betas : Array Nat) (β : Nat → K), betas.size = m + 1 → m + 1 < b →
      (∀ i, i < m + 1 → S.V (gt betas i) ∧ S.φ (gt betas i) = β i) → Indep β (m + 1) →
      ∃ Ls, mkB F b mem (m + 1) betas = .ok Ls ∧ Chain S Ls m β ∧ ∃ L Ls', Ls = L :: Ls' ∧ L.betas = betas := by
  intro m
  induction m with
  | zero =>
    intro betas β hs hb hβ hI
    obtain ⟨v0, p0⟩ := hβ 0 (by omega)
    obtain ⟨iv, ei, vi, pi⟩ := S.inv v0 (hF.u v0 (by rw [p0]; exact hI.ne (by omega)))
    obtain ⟨P, eP, sP, hP⟩ := compute_beta_m_powers_spec hF (n := 2 ^ (0 + 1)) (by norm_num) v0 mem
    unfold mkB
    rw [Arith.exp2_eq hb, ok_bind, rd_gt (by omega), ok_bind, ei, ok_bind, ok_bind, ei, ok_bind, eP, ok_bind, Arith.exp2_eq (show 0 < b by omega), ok_bind,
      if_neg (show ¬ 0 + 1 > 1 by omega)]
    refine ⟨_, rfl, ?_, _, _, rfl, rfl⟩
    unfold Chain
    exact ⟨rfl, rfl, rfl, hs, hβ, ⟨v0, p0⟩, ⟨vi, by rw [pi, p0]⟩, ⟨v0, p0⟩, ⟨vi, by rw [pi, p0]⟩, sP, fun i hi => by rw [← p0]; exact hP i hi, trivial⟩
  | succ m ih =>
    intro betas β hs hb hβ hI
    have hpow : 2 ≤ 2 ^ (m + 1 + 1) := by rw [pow_succ]; have : 0 < 2 ^ (m + 1) := by positivity
                                          omega
    obtain ⟨v0, p0⟩ := hβ 0 (by omega)
    obtain ⟨vm, pm⟩ := hβ (m + 1) (by omega)
    have hbm : β (m + 1) ≠ 0 := hI.ne (by omega)
    obtain ⟨iv, ei, vi, pi⟩ := S.inv v0 (hF.u v0 (by rw [p0]; exact hI.ne (by omega)))
    obtain ⟨iw, ew, vw, pw⟩ := S.inv vm (hF.u vm (by rw [pm]; exact hbm))
    obtain ⟨P, eP, sP, hP⟩ := compute_beta_m_powers_spec hF (n := 2 ^ (m + 1 + 1)) hpow vm mem
    -- the basis of the next level
    obtain ⟨⟨gs, ds⟩, eg, sg, sd, hg, hd⟩ := forN_inv (n := m + 1) (s := (fresh mem (m + 1), fresh mem (m + 1)))
      (f := fun i (s : Array Nat × Array Nat) => do
        let x ← rd betas i
        let gamma := if gt betas (m + 1) > 1 then F.mul iw x else x
        let g ← wr s.1 i gamma
        let d ← wr s.2 i (F.add (F.exp gamma 2) gamma)
        pure (g, d))
      (I := fun k (s : Array Nat × Array Nat) => s.1.size = m + 1 ∧ s.2.size = m + 1 ∧
        (∀ i, i < k → S.V (gt s.1 i) ∧ S.φ (gt s.1 i) = gam β (m + 1) i) ∧
        (∀ i, i < k → S.V (gt s.2 i) ∧ S.φ (gt s.2 i) = del β (m + 1) i))
      ⟨by simp, by simp, fun i hi => by omega, fun i hi => by omega⟩ (by
        rintro k ⟨g, d⟩ hk ⟨i1, i2, i3, i4⟩
        simp only at i1 i2 i3 i4 ⊢
        obtain ⟨vk, pk⟩ := hβ k (by omega)
        have hgam : S.V (if gt betas (m + 1) > 1 then F.mul iw (gt betas k) else gt betas k) ∧
            S.φ (if gt betas (m + 1) > 1 then F.mul iw (gt betas k) else gt betas k) = gam β (m + 1) k := by
          unfold gam
          split
          · have := S.mul vw vk
            exact ⟨this.1, by rw [this.2, pw, pm, pk]⟩
          · rename_i h
            have : gt betas (m + 1) = 1 := by
              have : gt betas (m + 1) ≠ 0 := fun h0 => hbm (by rw [← pm, h0, S.zero.2])
              omega
            rw [this, hF.v1.2] at pm
            exact ⟨vk, by rw [pk, ← pm, inv_one, one_mul]⟩
        have hexp := S.exp (e := 2) hgam.1
        have hdel := S.add hexp.1 hgam.1
        refine ⟨_, by rw [rd_gt (by omega), ok_bind, wr_ok (by omega), ok_bind, wr_ok (by omega), ok_bind]; rfl,
          by simpa using i1, by simpa using i2, fun i hi => ?_, fun i hi => ?_⟩
        · simp only
          rw [gt_set (by omega)]
          split
          · rename_i h; rw [h]; exact hgam
          · exact i3 i (by omega)
        · simp only
          rw [gt_set (by omega)]
          split
          · rename_i h; rw [h]
            refine ⟨hdel.1, ?_⟩
            rw [hdel.2, hexp.2, hgam.2]; rfl
          · exact i4 i (by omega))
    simp only at sg sd hg hd
    obtain ⟨G, eG, sG, hG⟩ := compute_subspace_spec (S := S) hadd (b := b) (dim := m + 1) (basis := gs) (sub := fresh mem (2 ^ (m + 1))) mem
      sg (by omega) (by simp) (fun i hi => (hg i hi).1)
    obtain ⟨Ls, eL, cL, _⟩ := ih ds (del β (m + 1)) sd (by omega) hd hI.del
    have ebasis : compute_basis F b (m + 1 + 1) (gt betas (m + 1)) iw betas mem = .ok (gs, ds, G) := by
      unfold compute_basis
      rw [show m + 1 + 1 - 1 = m + 1 by omega, eg, ok_bind]
      simp only
      rw [Arith.exp2_eq (by omega), ok_bind, eG]; rfl
    unfold mkB
    rw [Arith.exp2_eq hb, ok_bind, rd_gt (by omega), ok_bind, ei, ok_bind, rd_gt (by omega), ok_bind, ew, ok_bind, eP, ok_bind,
      Arith.exp2_eq (by omega), ok_bind, if_pos (by omega), ebasis, ok_bind]
    simp only
    rw [eL, ok_bind]
    refine ⟨_, rfl, ?_, _, _, rfl, rfl⟩
    unfold Chain
    refine ⟨rfl, rfl, rfl, hs, hβ, ⟨v0, p0⟩, ⟨vi, by rw [pi, p0]⟩, ⟨vm, pm⟩, ⟨vw, by rw [pw, pm]⟩, sP, fun i hi => by rw [← pm]; exact hP i hi,
      sG, fun i hi => ?_, cL⟩
    refine ⟨(hG i hi).1, ?_⟩
    rw [(hG i hi).2]
    exact span_congr (fun j hj => (hg j hj).2) i

/-! ### the transform -/

theorem mulBeta_spec {a : Array Nat} {beta : Nat} (hV : AllV S a) (hb : S.V beta) :
    ∃ r, mulBeta F a beta = .ok r ∧ r.size = a.size ∧ AllV S r ∧ ∀ i, S.φ (gt r i) = S.φ (gt a i) * S.φ beta ^ i := by
  unfold mulBeta
  obtain ⟨⟨x, r⟩, e, _, h2, h3⟩ := forN_inv (n := a.size - 1) (s := (beta, a)) (f := fun s st => do
      let x ← rd st.2 (s + 1)
      let a ← wr st.2 (s + 1) (F.mul x st.1)
      pure (F.mul st.1 beta, a))
    (I := fun s (st : Nat × Array Nat) => (S.V st.1 ∧ S.φ st.1 = S.φ beta ^ (s + 1)) ∧ st.2.size = a.size ∧
      ∀ i, S.V (gt st.2 i) ∧ S.φ (gt st.2 i) = if i < s + 1 then S.φ (gt a i) * S.φ beta ^ i else S.φ (gt a i))
    ⟨⟨hb, by simp⟩, rfl, fun i => ⟨hV i, by
      simp only
      split
      · rename_i h; obtain rfl : i = 0 := by omega
        simp
      · rfl⟩⟩ (by
      rintro s ⟨y, r⟩ hs ⟨⟨i1, i1'⟩, i2, i3⟩
      simp only at i1 i1' i2 i3 ⊢
      have hm := S.mul i1 hb
      have hx := S.mul (i3 (s + 1)).1 i1
      refine ⟨_, by rw [rd_gt (by omega), ok_bind, wr_ok (by omega), ok_bind]; rfl,
        ⟨hm.1, by rw [hm.2, i1', pow_succ _ (s + 1)]⟩, by simpa using i2, fun i => ?_⟩
      simp only
      rw [gt_set (by omega)]
      split
      · rename_i h
        refine ⟨hx.1, ?_⟩
        rw [hx.2, (i3 (s + 1)).2, if_neg (by omega), h, if_pos (by omega), i1']
      · refine ⟨(i3 i).1, ?_⟩
        rw [(i3 i).2]
        by_cases h : i < s + 1
        · rw [if_pos h, if_pos (by omega)]
        · rw [if_neg h, if_neg (by omega)])
  simp only at h2 h3
  rw [e]
  refine ⟨r, rfl, h2, fun i => (h3 i).1, fun i => ?_⟩
  rw [(h3 i).2]
  split
  · rfl
  · rw [gt_oob (by omega), S.zero.2, zero_mul]

theorem eval_cPoly (c : Nat → K) (n : Nat) (x : K) : (cPoly c n).eval x = ∑ i ∈ range n, c i * x ^ i := by
  unfold cPoly
  rw [eval_finset_sum]
  simp

theorem eval_scale {c d : Nat → K} {n : Nat} {β : K} (h : ∀ i, i < n → d i = c i * β ^ i) (x : K) :
    (cPoly d n).eval x = (cPoly c n).eval (β * x) := by
  rw [eval_cPoly, eval_cPoly]
  refine sum_congr rfl fun i hi => ?_
  rw [h i (mem_range.mp hi), mul_pow]; ring

theorem eval_t2 (g0 g1 : Array Nat) (M : Nat) (x : K) :
    (tPoly 2 (fun i => S.φ (il g0 g1 i)) (2 * M)).eval x =
      (cPoly (fun i => S.φ (gt g0 i)) M).eval (x ^ 2 - x) + x * (cPoly (fun i => S.φ (gt g1 i)) M).eval (x ^ 2 - x) := by
  induction M with
  | zero => simp [tPoly, cPoly]
  | succ M ih =>
    have h := tPoly_add (K := K) (t := 2) (by omega) (fun i => S.φ (il g0 g1 i)) M 2
    rw [show 2 * (M + 1) = 2 * M + 2 by ring, h, tPoly_small _ le_rfl, eval_add, ih, eval_mul, eval_cPoly, eval_cPoly, eval_cPoly, eval_cPoly,
      eval_cPoly]
    simp only [sum_range_succ, sum_range_zero, il]
    rw [if_pos (by omega), if_neg (by omega), show (2 * M + 0) / 2 = M by omega, show (2 * M + 1) / 2 = M by omega]
    simp
    ring

theorem polyOf_cPoly {a : Array Nat} {n : Nat} (h : a.size = n) : polyOf S a = cPoly (fun i => S.φ (gt a i)) n := by rw [polyOf_eq, h]

theorem beta_le_one (hF : S.Full) {x : Nat} {β : K} (hx : S.V x ∧ S.φ x = β) (h0 : β ≠ 0) (h : ¬ x > 1) : β = 1 := by
  have : x ≠ 0 := fun h0' => h0 (by rw [← hx.2, h0', S.zero.2])
  rw [← hx.2, show x = 1 by omega, hF.v1.2]

theorem fft_spec [CharP K 2] (hF : S.Full) {b : Nat} (mem : Nat → Nat) :
    ∀ (m : Nat) (Ls : List Level) (β : Nat → K) (output input : Array Nat), Chain S Ls m β → Indep β (m + 1) → m + 1 ≤ b →
      output.size = 2 ^ (m + 1) → input.size = 2 ^ (m + 1) → AllV S input →
      ∃ r, fft F b mem Ls output input = .ok r ∧ r.size = 2 ^ (m + 1) ∧ AllV S r ∧
        ∀ i, i < 2 ^ (m + 1) → S.φ (gt r i) = (polyOf S input).eval (span β (m + 1) i) := by
  intro m
  induction m with
  | zero =>
    intro Ls β output input hC hI hb ho hi hV
    match Ls, hC with
    | L :: Ls, hC =>
      unfold Chain at hC
      obtain ⟨c1, c2, c3, c4, c5, ⟨c6, c6'⟩, c7, c8, c9, c10, c11, _⟩ := hC
      norm_num at ho hi
      have hm := S.mul (hV 1) c6
      have ha := S.add (hV 0) hm.1
      unfold fft
      rw [if_neg (by omega), rd_gt (by omega), ok_bind, wr_ok (by omega), ok_bind, ok_bind, rd_gt (by omega), ok_bind, wr_ok (by simp; omega)]
      have hg : ∀ i, i < 2 → gt ((output.setIfInBounds 0 (gt input 0)).setIfInBounds 1 (F.add (gt input 0) (F.mul (gt input 1) L.beta_1))) i =
          if i = 1 then F.add (gt input 0) (F.mul (gt input 1) L.beta_1) else gt input 0 := by
        intro i hi
        rw [gt_set (by simp; omega), gt_set (by omega)]
        rcases (show i = 0 ∨ i = 1 by omega) with rfl | rfl <;> simp
      refine ⟨_, rfl, by simp [ho], fun i => ?_, fun i hi' => ?_⟩
      · by_cases h : i < 2
        · rw [hg i h]; split
          · exact ha.1
          · exact hV 0
        · rw [gt_oob (by simp; omega)]; exact S.zero.1
      · norm_num at hi'
        rw [hg i (by omega), polyOf_cPoly hi, eval_cPoly]
        rcases (show i = 0 ∨ i = 1 by omega) with rfl | rfl
        · simp [span, sum_range_succ]
        · simp [span, sum_range_succ, ha.2, hm.2, c6']
  | succ m ih =>
    intro Ls β output input hC hI hb ho hi hV
    match Ls, hC with
    | L :: Ls, hC =>
      unfold Chain at hC
      obtain ⟨c1, c2, c3, c4, c5, c6, c7, c8, c9, c10, c11, c12, c13, c14⟩ := hC
      have hbm : β (m + 1) ≠ 0 := hI.ne (by omega)
      have hp1 : 2 ^ (m + 1 + 1) = 2 * 2 ^ (m + 1) := pow_succ' 2 _
      have hpos : 0 < 2 ^ (m + 1) := by positivity
      -- the scaled input
      obtain ⟨w0, ew0, sw0, gw0⟩ := vecCopy_spec (a := fresh mem L.n) (v := input) (n := L.n) (dst := 0) (src := 0) (by simp)
      rw [fresh_size, c2] at sw0
      have gw0' : ∀ j, gt w0 j = gt input j := by
        intro j
        by_cases hj : j < 2 ^ (m + 1 + 1)
        · rw [gw0, if_pos ⟨by omega, by omega⟩]; congr 1; omega
        · rw [gt_oob (by omega), gt_oob (by omega)]
      have hw : ∃ w, (if L.beta_m > 1 then hadamardMul F w0 L.beta_m_powers else pure w0) = .ok w ∧ w.size = 2 ^ (m + 1 + 1) ∧ AllV S w ∧
          ∀ j, j < 2 ^ (m + 1 + 1) → S.φ (gt w j) = S.φ (gt input j) * β (m + 1) ^ j := by
        by_cases h1 : L.beta_m > 1
        · rw [if_pos h1]
          obtain ⟨w, ew, sw, hw⟩ := hadamardMul_spec (S := S) (a := w0) (v := L.beta_m_powers) (by omega) (fun j _ => by rw [gw0']; exact hV j)
            (fun j hj => (c11 j (by omega)).1)
          refine ⟨w, ew, by omega, fun j => ?_, fun j hj => ?_⟩
          · by_cases hj : j < w0.size
            · exact (hw j hj).1
            · rw [gt_oob (by omega)]; exact S.zero.1
          · rw [(hw j (by omega)).2, gw0', (c11 j hj).2]
        · rw [if_neg h1]
          refine ⟨w0, rfl, sw0, fun j => by rw [gw0']; exact hV j, fun j _ => ?_⟩
          rw [gw0', beta_le_one hF c8 hbm h1, one_pow, mul_one]
      obtain ⟨w, ew, sw, vw, pw⟩ := hw
      obtain ⟨w', g0, g1, et, s0, s1, vg, pg⟩ := taylor_expand_t2_spec (F := F) (S := S) (b := b) (e := m + 1 + 1) (g0 := fresh mem L.m_k)
        (g1 := fresh mem L.m_k) (input := w) sw hb (by simp [c3, hp1]) (by simp [c3, hp1]) vw
      rw [fresh_size, c3] at s0 s1
      have v0 : AllV S g0 := by
        intro i
        by_cases h : i < 2 ^ (m + 1)
        · have := vg (2 * i) (by omega)
          unfold il at this
          rwa [if_pos (by omega), show 2 * i / 2 = i by omega] at this
        · rw [gt_oob (by omega)]; exact S.zero.1
      have v1 : AllV S g1 := by
        intro i
        by_cases h : i < 2 ^ (m + 1)
        · have := vg (2 * i + 1) (by omega)
          unfold il at this
          rwa [if_neg (by omega), show (2 * i + 1) / 2 = i by omega] at this
        · rw [gt_oob (by omega)]; exact S.zero.1
      obtain ⟨u, eu, su, vu, pu⟩ := ih Ls (del β (m + 1)) (fresh mem L.m_k) g0 c14 hI.del (by omega) (by simp [c3]) s0 v0
      obtain ⟨v, ev, sv, vv, pv⟩ := ih Ls (del β (m + 1)) (fresh mem L.m_k) g1 c14 hI.del (by omega) (by simp [c3]) s1 v1
      -- the value of the polynomial at the points of the two halves
      have key : ∀ x, (polyOf S input).eval (β (m + 1) * x) = (polyOf S g0).eval (x ^ 2 - x) + x * (polyOf S g1).eval (x ^ 2 - x) := by
        intro x
        rw [polyOf_cPoly hi, ← eval_scale pw x, ← polyOf_cPoly sw, ← pg, hp1, eval_t2, polyOf_cPoly s0, polyOf_cPoly s1]
      obtain ⟨o1, eo1, so1, go1⟩ := vecCopy_spec (a := output) (v := v) (n := L.m_k) (dst := L.m_k) (src := 0) (by omega)
      obtain ⟨x1, ex1, sx1, hx1⟩ := hadamardMul_spec (S := S) (a := v) (v := L.G) (by omega) (fun j _ => vv j) (fun j hj => (c13 j (by omega)).1)
      obtain ⟨x2, ex2, sx2, gx2⟩ := addVec_spec (F := F) (a := x1) (v := u) (dst := 0) (src := 0) (len := x1.size) (by omega) (by omega)
      obtain ⟨o2, eo2, so2, go2⟩ := vecCopy_spec (a := o1) (v := x2) (n := L.m_k) (dst := 0) (src := 0) (by omega)
      obtain ⟨o3, eo3, so3, go3⟩ := addVec_spec (F := F) (a := o2) (v := x2) (dst := L.m_k) (src := 0) (len := x2.size) (by omega) (by omega)
      -- the first half
      have hx2 : ∀ i, i < 2 ^ (m + 1) → S.V (gt x2 i) ∧ S.φ (gt x2 i) = S.φ (gt v i) * span (gam β (m + 1)) (m + 1) i + S.φ (gt u i) := by
        intro i hi'
        rw [gx2, if_pos ⟨by omega, by omega⟩, zero_add, Nat.sub_zero]
        have ha := S.add (hx1 i (by omega)).1 (vu i)
        exact ⟨ha.1, by rw [ha.2, (hx1 i (by omega)).2, (c13 i hi').2]⟩
      have hlow : ∀ i, i < 2 ^ (m + 1) → gt o3 i = gt x2 i := by
        intro i hi'
        rw [go3, if_neg (by omega), go2, if_pos ⟨by omega, by omega⟩]; congr 1; omega
      have hhigh : ∀ i, i < 2 ^ (m + 1) → gt o3 (i + 2 ^ (m + 1)) = F.add (gt v i) (gt x2 i) := by
        intro i hi'
        rw [go3, if_pos ⟨by omega, by omega⟩, go2, if_neg (by omega), go1, if_pos ⟨by omega, by omega⟩]
        congr 2 <;> omega
      have hsd : ∀ i, span (del β (m + 1)) (m + 1) i = span (gam β (m + 1)) (m + 1) i ^ 2 + span (gam β (m + 1)) (m + 1) i := fun i => by
        unfold del; exact span_sq _ _ _
      have hsp : ∀ i, span β (m + 1) i = β (m + 1) * span (gam β (m + 1)) (m + 1) i := fun i => by
        unfold gam; rw [span_mul, ← mul_assoc, mul_inv_cancel₀ hbm, one_mul]
      refine ⟨o3, ?_, by omega, fun i => ?_, fun i hi' => ?_⟩
      · unfold fft
        rw [if_pos (by omega), ew0, ok_bind, ew, ok_bind, c2, et, ok_bind]
        simp only [cassert]
        rw [eu, ok_bind, ev, ok_bind, eo1, ok_bind, ex1, ok_bind, if_pos (by simp; omega), ok_bind, ex2, ok_bind, eo2, ok_bind, if_pos (by simp; omega), ok_bind, eo3]
      · by_cases h : i < 2 ^ (m + 1)
        · rw [hlow i h]; exact (hx2 i h).1
        · by_cases h' : i < 2 ^ (m + 1 + 1)
          · have := hhigh (i - 2 ^ (m + 1)) (by omega)
            rw [show i - 2 ^ (m + 1) + 2 ^ (m + 1) = i by omega] at this
            rw [this]
            exact (S.add (vv _) (hx2 _ (by omega)).1).1
          · rw [gt_oob (by omega)]; exact S.zero.1
      · by_cases h : i < 2 ^ (m + 1)
        · rw [hlow i h, (hx2 i h).2, span_succ_low β h, hsp, key, pu i h, pv i h, hsd, CharTwo.sub_eq_add]; ring
        · obtain ⟨d, rfl⟩ : ∃ d, i = d + 2 ^ (m + 1) := ⟨i - 2 ^ (m + 1), by omega⟩
          have hd : d < 2 ^ (m + 1) := by omega
          rw [hhigh d hd, (S.add (vv d) (hx2 d hd).1).2, (hx2 d hd).2, span_high β hd, hsp,
            show β (m + 1) * span (gam β (m + 1)) (m + 1) d + β (m + 1) = β (m + 1) * (span (gam β (m + 1)) (m + 1) d + 1) by ring, key,
            pu d hd, pv d hd, hsd]
          have : (span (gam β (m + 1)) (m + 1) d + 1) ^ 2 - (span (gam β (m + 1)) (m + 1) d + 1) =
              span (gam β (m + 1)) (m + 1) d ^ 2 + span (gam β (m + 1)) (m + 1) d := by
            rw [CharTwo.sub_eq_add, CharTwo.add_sq, one_pow]
            rw [show ∀ y : K, y ^ 2 + 1 + (y + 1) = y ^ 2 + y + (1 + 1) from fun y => by ring, CharTwo.add_self_eq_zero, add_zero]
          rw [this]; ring

theorem fft_inv_spec [CharP K 2] (hF : S.Full) (mem : Nat → Nat) :
    ∀ (m : Nat) (Ls : List Level) (β : Nat → K) (output input : Array Nat), Chain S Ls m β → Indep β (m + 1) →
      output.size = 2 ^ (m + 1) → input.size = 2 ^ (m + 1) → AllV S input →
      ∃ r, fft_inv F mem Ls output input = .ok r ∧ r.size = 2 ^ (m + 1) ∧ AllV S r ∧
        ∀ i, i < 2 ^ (m + 1) → (polyOf S r).eval (span β (m + 1) i) = S.φ (gt input i) := by
  intro m
  induction m with
  | zero =>
    intro Ls β output input hC hI ho hi hV
    match Ls, hC with
    | L :: Ls, hC =>
      unfold Chain at hC
      obtain ⟨c1, c2, c3, c4, c5, c6, ⟨c7, c7'⟩, c8, c9, c10, c11, _⟩ := hC
      norm_num at ho hi
      have ha := S.add (hV 0) (hV 1)
      have hm := S.mul c7 ha.1
      unfold fft_inv
      rw [if_neg (by omega), rd_gt (by omega), ok_bind, wr_ok (by omega), ok_bind, ok_bind, rd_gt (by omega), ok_bind, wr_ok (by simp; omega)]
      obtain ⟨r, hr⟩ : ∃ r, r = (output.setIfInBounds 0 (gt input 0)).setIfInBounds 1 (F.mul L.inv_beta_1 (F.add (gt input 0) (gt input 1))) := ⟨_, rfl⟩
      have sr : r.size = 2 := by rw [hr]; simp [ho]
      rw [← hr]
      have g0 : gt r 0 = gt input 0 := by rw [hr, gt_set (by simp; omega), if_neg (by omega), gt_set (by omega), if_pos rfl]
      have g1 : gt r 1 = F.mul L.inv_beta_1 (F.add (gt input 0) (gt input 1)) := by rw [hr, gt_set (by simp; omega), if_pos rfl]
      refine ⟨r, rfl, by rw [sr]; norm_num, fun i => ?_, fun i hi' => ?_⟩
      · by_cases h : i < 2
        · rcases (show i = 0 ∨ i = 1 by omega) with rfl | rfl
          · rw [g0]; exact hV 0
          · rw [g1]; exact hm.1
        · rw [gt_oob (by omega)]; exact S.zero.1
      · norm_num at hi'
        have hb0 : β 0 ≠ 0 := hI.ne (by omega)
        rw [polyOf_cPoly sr, eval_cPoly]
        rcases (show i = 0 ∨ i = 1 by omega) with rfl | rfl
        · simp [span, sum_range_succ, g0]
        · simp only [sum_range_succ, sum_range_zero, g0, g1, hm.2, ha.2, c7', span, zero_add, pow_zero, pow_one, mul_one]
          simp only [Nat.testBit_zero, Nat.one_mod, decide_true, if_true]
          rw [mul_comm, ← mul_assoc, mul_inv_cancel₀ hb0, one_mul, ← add_assoc, CharTwo.add_self_eq_zero, zero_add]
  | succ m ih =>
    intro Ls β output input hC hI ho hi hV
    match Ls, hC with
    | L :: Ls, hC =>
      unfold Chain at hC
      obtain ⟨c1, c2, c3, c4, c5, c6, c7, c8, c9, c10, c11, c12, c13, c14⟩ := hC
      have hbm : β (m + 1) ≠ 0 := hI.ne (by omega)
      have hp1 : 2 ^ (m + 1 + 1) = 2 * 2 ^ (m + 1) := pow_succ' 2 _
      have hpos : 0 < 2 ^ (m + 1) := by positivity
      have hn0 : sliceLen L.m_k 0 input.size = 2 ^ (m + 1) := by
        unfold sliceLen
        rw [if_pos (by omega), c3]
      obtain ⟨v0, ev0, sv0, gv0⟩ := vecCopy_spec (a := fresh mem L.m_k) (v := input) (n := L.m_k) (dst := 0) (src := L.m_k) (by simp)
      rw [fresh_size, c3] at sv0
      obtain ⟨v, ev, sv, gv⟩ := addVec_spec (F := F) (a := v0) (v := input) (dst := 0) (src := 0) (len := v0.size) (by omega) (by omega)
      have hv : ∀ i, i < 2 ^ (m + 1) → gt v i = F.add (gt input (i + 2 ^ (m + 1))) (gt input i) := by
        intro i h
        rw [gv, if_pos ⟨by omega, by omega⟩, gv0, if_pos ⟨by omega, by omega⟩]
        congr 2 <;> omega
      have vv : AllV S v := by
        intro i
        by_cases h : i < 2 ^ (m + 1)
        · rw [hv i h]; exact (S.add (hV _) (hV _)).1
        · rw [gt_oob (by omega)]; exact S.zero.1
      obtain ⟨u0, eu0, su0, gu0⟩ := vecCopy_spec (a := fresh mem L.m_k) (v := v) (n := v.size) (dst := 0) (src := 0) (by simp; omega)
      rw [fresh_size, c3] at su0
      have hu0 : ∀ i, i < 2 ^ (m + 1) → gt u0 i = gt v i := by
        intro i h
        rw [gu0, if_pos ⟨by omega, by omega⟩]; congr 1; omega
      obtain ⟨u1, eu1, su1, hu1⟩ := hadamardMul_spec (S := S) (a := u0) (v := L.G) (by omega) (fun j hj => by rw [hu0 j (by omega)]; exact vv j)
        (fun j hj => (c13 j (by omega)).1)
      obtain ⟨u, eu, su, gu⟩ := addVec_spec (F := F) (a := u1) (v := input) (dst := 0) (src := 0) (len := u1.size) (by omega) (by omega)
      have hu : ∀ i, i < 2 ^ (m + 1) → S.V (gt u i) ∧ S.φ (gt u i) = S.φ (gt v i) * span (gam β (m + 1)) (m + 1) i + S.φ (gt input i) := by
        intro i h
        rw [gu, if_pos ⟨by omega, by omega⟩, zero_add, Nat.sub_zero]
        have ha := S.add (hu1 i (by omega)).1 (hV i)
        exact ⟨ha.1, by rw [ha.2, (hu1 i (by omega)).2, hu0 i h, (c13 i h).2]⟩
      have vu : AllV S u := by
        intro i
        by_cases h : i < 2 ^ (m + 1)
        · exact (hu i h).1
        · rw [gt_oob (by omega)]; exact S.zero.1
      obtain ⟨g0, eg0, s0, vg0, pg0⟩ := ih Ls (del β (m + 1)) (fresh mem L.m_k) u c14 hI.del (by simp [c3]) (by omega) vu
      obtain ⟨g1, eg1, s1, vg1, pg1⟩ := ih Ls (del β (m + 1)) (fresh mem L.m_k) v c14 hI.del (by simp [c3]) (by omega) vv
      obtain ⟨w, ew, sw, vw, pw⟩ := inv_taylor_expand_t2_spec (F := F) (S := S) hF (e := m + 1 + 1) (g0 := g0) (g1 := g1)
        (output := Array.replicate output.size 0) (by simp [ho]) (by omega) (by omega) (fun i _ => by
          unfold il; split
          · exact vg0 _
          · exact vg1 _)
      have hfin : ∃ r, (if L.beta_m > 1 then mulBeta F w L.inv_beta_m else pure w) = .ok r ∧ r.size = 2 ^ (m + 1 + 1) ∧ AllV S r ∧
          ∀ j, S.φ (gt r j) = S.φ (gt w j) * (β (m + 1))⁻¹ ^ j := by
        by_cases h1 : L.beta_m > 1
        · rw [if_pos h1]
          obtain ⟨r, er, sr, vr, pr⟩ := mulBeta_spec (F := F) (S := S) (a := w) vw c9.1
          exact ⟨r, er, by omega, vr, fun j => by rw [pr j, c9.2]⟩
        · rw [if_neg h1]
          refine ⟨w, rfl, sw, vw, fun j => ?_⟩
          rw [beta_le_one hF c8 hbm h1, inv_one, one_pow, mul_one]
      obtain ⟨r, er, sr, vr, pr⟩ := hfin
      have key : ∀ x, (polyOf S r).eval (β (m + 1) * x) = (polyOf S g0).eval (x ^ 2 - x) + x * (polyOf S g1).eval (x ^ 2 - x) := by
        intro x
        rw [polyOf_cPoly sr, eval_scale (fun j _ => pr j), ← mul_assoc, inv_mul_cancel₀ hbm, one_mul, ← polyOf_cPoly sw, pw, hp1, eval_t2,
          polyOf_cPoly s0, polyOf_cPoly s1]
      have hsd : ∀ i, span (del β (m + 1)) (m + 1) i = span (gam β (m + 1)) (m + 1) i ^ 2 + span (gam β (m + 1)) (m + 1) i := fun i => by
        unfold del; exact span_sq _ _ _
      have hsp : ∀ i, span β (m + 1) i = β (m + 1) * span (gam β (m + 1)) (m + 1) i := fun i => by
        unfold gam; rw [span_mul, ← mul_assoc, mul_inv_cancel₀ hbm, one_mul]
      refine ⟨r, ?_, sr, vr, fun i hi' => ?_⟩
      · unfold fft_inv
        rw [if_pos (by omega)]
        simp only [cassert]
        rw [ev0, ok_bind, hn0, if_pos (by simp; omega), ok_bind, ev, ok_bind, eu0, ok_bind, eu1, ok_bind, if_pos (by simp; omega), ok_bind, eu, ok_bind,
          eg0, ok_bind, eg1, ok_bind, ew, ok_bind, er]
      · by_cases h : i < 2 ^ (m + 1)
        · rw [span_succ_low β h, hsp, key, CharTwo.sub_eq_add, ← hsd, pg0 i h, pg1 i h, (hu i h).2]
          rw [show ∀ a c y : K, a * y + c + y * a = c + (a * y + a * y) from fun a c y => by ring, CharTwo.add_self_eq_zero, add_zero]
        · obtain ⟨d, rfl⟩ : ∃ d, i = d + 2 ^ (m + 1) := ⟨i - 2 ^ (m + 1), by omega⟩
          have hd : d < 2 ^ (m + 1) := by omega
          rw [span_high β hd, hsp,
            show β (m + 1) * span (gam β (m + 1)) (m + 1) d + β (m + 1) = β (m + 1) * (span (gam β (m + 1)) (m + 1) d + 1) by ring, key]
          have : (span (gam β (m + 1)) (m + 1) d + 1) ^ 2 - (span (gam β (m + 1)) (m + 1) d + 1) =
              span (gam β (m + 1)) (m + 1) d ^ 2 + span (gam β (m + 1)) (m + 1) d := by
            rw [CharTwo.sub_eq_add, CharTwo.add_sq, one_pow]
            rw [show ∀ y : K, y ^ 2 + 1 + (y + 1) = y ^ 2 + y + (1 + 1) from fun y => by ring, CharTwo.add_self_eq_zero, add_zero]
          rw [this, ← hsd, pg0 d hd, pg1 d hd, (hu d hd).2, hv d hd, (S.add (hV _) (hV _)).2]
          rw [show ∀ a c y : K, (a + c) * y + c + (y + 1) * (a + c) = a + (((a + c) * y + (a + c) * y) + (c + c)) from fun a c y => by ring,
            CharTwo.add_self_eq_zero, CharTwo.add_self_eq_zero, add_zero, add_zero]

end Additive
end Quad
