import Verif.Model.FecFftAdd
import Verif.Lemmas.FecFftBuild
import Verif.Lemmas.FftAddObj

/-!
# The code on the additive transform
-/

namespace Quad
open Finset Polynomial Spec

namespace RsGf2nFftAdd

variable {K : Type} [Field K]

/-- what the constructor builds: the words are the values of a polynomial at the points `pt` -/
structure Good (c : Code) (S : c.base.F.Sim K) (w k m n : Nat) (pt : Nat → K) : Prop where
  plain : c.base.F.Plain
  full : S.Full
  char : S.Char
  one : S.V c.base.F.oneWord ∧ S.φ c.base.F.oneWord = 1
  neg : ∀ a : K, -a = a
  val : ∀ a, S.V a ↔ a < 256 ^ w
  sys : c.base.sys = false
  hw : WordSize w
  word : c.base.word_size = w
  n_data : c.base.n_data = k
  n_parities : c.base.n_parities = m
  code_len : c.base.code_len = k + m
  n_outputs : c.base.n_outputs = k + m
  hn : c.base.n = n
  kpos : 0 < k
  kn : k < n
  le : k + m ≤ n
  bsize : c.betas.size = n
  bet : ∀ i, i < n → S.V (gt c.betas i) ∧ S.φ (gt c.betas i) = pt i
  inj : ∀ i j, i < n → j < n → pt i = pt j → i = j
  fft : ∀ out input : Array Nat, out.size = n → input.size = n → (∀ i, S.V (gt input i)) →
    ∃ r, c.base.fft.fft out input = .ok r ∧ r.size = n ∧ ∀ i, i < n → S.V (gt r i) ∧ S.φ (gt r i) = (polyOf S input).eval (pt i)

variable {c : Code} {S : c.base.F.Sim K} {w k m n : Nat} {pt : Nat → K}

theorem points_spec (G : Good c S w k m n pt) {ids vx : Array Nat} (hids : ValidIds k n ids) (hvx : vx.size = k) :
    ∃ r z, points c ids vx = .ok (r, z) ∧ r.size = k ∧
      (∀ i, i < k → S.V (gt r i) ∧ S.φ (gt r i) = pt (gt ids i)) ∧
      (∀ i, i < k → (some i = z ↔ pt (gt ids i) = 0)) ∧ (∀ i, z = some i → i < k) := by
  have hb : ∀ i, i < k → S.V (gt c.betas (gt ids i)) ∧ S.φ (gt c.betas (gt ids i)) = pt (gt ids i) := fun i hi =>
    G.bet _ (hids.lt i hi)
  have h0 : ∀ i, i < k → (gt c.betas (gt ids i) = 0 ↔ pt (gt ids i) = 0) := fun i hi => by
    rw [← (hb i hi).2, G.full.eq_zero (hb i hi).1]
  unfold points
  rw [G.n_data]
  obtain ⟨⟨r, z⟩, e, h1, h2, h3, h4⟩ := forN_inv (n := k) (s := (vx, (none : Option Nat))) (f := fun i s => do
      let j ← rd ids i
      let val ← rd c.betas j
      let vx ← wr s.1 i val
      pure (vx, if val = 0 then some i else s.2))
    (I := fun t (s : Array Nat × Option Nat) => s.1.size = k ∧ (∀ i, i < t → gt s.1 i = gt c.betas (gt ids i)) ∧
      (∀ i, i < t → (some i = s.2 ↔ pt (gt ids i) = 0)) ∧ ∀ i, s.2 = some i → i < t)
    ⟨hvx, by simp, by simp, by simp⟩ (by
      rintro t ⟨r, z⟩ ht ⟨i1, i2, i3, i4⟩
      simp only at i1 i2 i3 i4
      refine ⟨_, by
        rw [rd_gt (by rw [hids.size]; exact ht), ok_bind, rd_gt (by rw [G.bsize]; exact hids.lt t ht), ok_bind,
          wr_ok (a := r) (by omega), ok_bind]; rfl, by simpa using i1, ?_, ?_, ?_⟩
      · intro i hi
        simp only
        rw [gt_set (by omega)]
        split
        · rename_i h; rw [h]
        · exact i2 i (by omega)
      · intro i hi
        simp only
        by_cases hz : gt c.betas (gt ids t) = 0
        · rw [if_pos hz]
          have hz' := (h0 t ht).1 hz
          constructor
          · intro h
            obtain rfl : i = t := Option.some.inj h
            exact hz'
          · intro h
            rw [hids.inj i t (by omega) ht (G.inj _ _ (hids.lt i (by omega)) (hids.lt t ht) (by rw [h, hz']))]
        · rw [if_neg hz]
          by_cases hit : i = t
          · subst hit
            constructor
            · intro h; exact absurd (i4 i h.symm) (by omega)
            · intro h; exact absurd ((h0 i ht).2 h) hz
          · exact i3 i (by omega)
      · intro i
        simp only
        by_cases hz : gt c.betas (gt ids t) = 0
        · rw [if_pos hz]; intro h
          have : t = i := Option.some.inj h
          omega
        · rw [if_neg hz]; intro h
          have := i4 i h
          omega)
  simp only at h1 h2 h3 h4
  refine ⟨r, z, e, h1, fun i hi => ?_, h3, h4⟩
  rw [h2 i hi]
  exact hb i hi

/-- invariant of a context -/
structure CGood (S : c.base.F.Sim K) (C : Context) (k n : Nat) (pt : Nat → K) (ids : Array Nat) : Prop where
  idsEq : C.ctx.fragments_ids = ids
  zero : ∀ i, i < k → (some i = C.ctx.vx_zero ↔ pt (gt ids i) = 0)
  zlt : ∀ i, C.ctx.vx_zero = some i → i < k
  AOk : C.ctx.A.Ok S
  ASize : C.ctx.A.buf.size = n
  ADeg : C.ctx.A.degree = k
  A : polyOf S C.ctx.A.buf = locator k (fun i => pt (gt ids i))
  invSize : C.ctx.inv_A_i.size = k
  inv : ∀ i, i < k → S.V (gt C.ctx.inv_A_i i) ∧ S.φ (gt C.ctx.inv_A_i i) =
    ((derivative (locator k (fun i => pt (gt ids i)))).eval (pt (gt ids i)) * (if some i = C.ctx.vx_zero then 1 else pt (gt ids i)))⁻¹
  v1n : C.ctx.vec1_n.size = n
  Ssize : C.S.buf.size = k
  Slo : -1 ≤ C.S.degree
  Shi : C.S.degree < k

theorem initInv_spec {F : GF} {S : F.Sim K} (hF : S.Full) {ids vx A_fft inv_A_i : Array Nat} {z : Option Nat} {k n : Nat} (hids : k ≤ ids.size)
    (hlt : ∀ i, i < k → gt ids i < n) (hvs : k ≤ vx.size) (hv : ∀ i, i < k → S.V (gt vx i)) (hAs : A_fft.size = n)
    (hA : ∀ i, i < n → S.V (gt A_fft i)) (hA0 : ∀ i, i < k → S.φ (gt A_fft (gt ids i)) ≠ 0)
    (hz : ∀ i, i < k → (some i = z ↔ S.φ (gt vx i) = 0)) (hs : k ≤ inv_A_i.size) :
    ∃ r, Ctx.initInv F ids vx A_fft z k inv_A_i = .ok r ∧ r.size = inv_A_i.size ∧ ∀ i, i < k → S.V (gt r i) ∧
      S.φ (gt r i) = (S.φ (gt A_fft (gt ids i)) * (if some i = z then 1 else S.φ (gt vx i)))⁻¹ := by
  unfold Ctx.initInv
  obtain ⟨r, e, h1, h2⟩ := forN_inv (n := k) (s := inv_A_i) (f := fun i inv_A_i => do
      let j ← rd ids i
      let a ← rd A_fft j
      if some i ≠ z then do
        let x ← rd vx i
        let y ← F.inv (F.mul a x)
        wr inv_A_i i y
      else do
        let y ← F.inv a
        wr inv_A_i i y)
    (I := fun t (r : Array Nat) => r.size = inv_A_i.size ∧ ∀ i, i < t → S.V (gt r i) ∧
      S.φ (gt r i) = (S.φ (gt A_fft (gt ids i)) * (if some i = z then 1 else S.φ (gt vx i)))⁻¹)
    ⟨rfl, by simp⟩ (by
      rintro t r ht ⟨h1, h2⟩
      have hAt := hA _ (hlt t ht)
      have hm := S.mul hAt (hv t ht)
      by_cases hc : some t = z
      · obtain ⟨y, ey, yV, yφ⟩ := S.inv hAt (hF.u hAt (hA0 t ht))
        refine ⟨_, by
          rw [rd_gt (a := ids) (by omega), ok_bind, rd_gt (a := A_fft) (by rw [hAs]; exact hlt t ht), ok_bind, if_neg (by simpa using hc),
            ey, ok_bind, wr_ok (by omega)], by simp [h1], ?_⟩
        intro i hi
        rw [gt_set (by omega)]
        by_cases he : i = t
        · subst he; rw [if_pos rfl, if_pos hc, mul_one]; exact ⟨yV, yφ⟩
        · rw [if_neg he]; exact h2 i (by omega)
      · have hne : S.φ (F.mul (gt A_fft (gt ids t)) (gt vx t)) ≠ 0 := by
          rw [hm.2]; exact mul_ne_zero (hA0 t ht) (fun h => hc ((hz t ht).2 h))
        obtain ⟨y, ey, yV, yφ⟩ := S.inv hm.1 (hF.u hm.1 hne)
        refine ⟨_, by
          rw [rd_gt (a := ids) (by omega), ok_bind, rd_gt (a := A_fft) (by rw [hAs]; exact hlt t ht), ok_bind, if_pos hc,
            rd_gt (a := vx) (by omega), ok_bind, ey, ok_bind, wr_ok (by omega)], by simp [h1], ?_⟩
        intro i hi
        rw [gt_set (by omega)]
        by_cases he : i = t
        · subst he; rw [if_pos rfl, if_neg hc]; exact ⟨yV, by rw [yφ, hm.2]⟩
        · rw [if_neg he]; exact h2 i (by omega))
  exact ⟨r, e, h1, h2⟩

theorem init_context_dec_spec (G : Good c S w k m n pt) (hlen : ∃ l, c.base.F.codeLenHC (2 * k) = .ok l) {ids : Array Nat}
    {props : Array Properties} (hids : ValidIds k n ids) (mem : Nat → Nat) :
    ∃ C, init_context_dec c ids props mem = .ok (C, props.map Properties.sort) ∧ CGood S C k n pt ids := by
  obtain ⟨len, elen⟩ := hlen
  obtain ⟨vx, z, ev, sv, hv, hz, hzk⟩ := points_spec G hids (vx := fresh mem k) (by simp)
  obtain ⟨A, dA, eA, sA, sD, vA, vD, pA, pD, oA, degA⟩ := Ctx.initA_full G.char G.one mem G.kn sv.ge (fun i hi => (hv i hi).1)
  have hloc : locator k (fun i => S.φ (gt vx i)) = locator k (fun i => pt (gt ids i)) := by
    unfold locator
    refine prod_congr rfl (fun i hi => ?_)
    simp only
    rw [(hv i (mem_range.mp hi)).2]
  rw [hloc] at pA pD
  have hinj : Set.InjOn (fun i => pt (gt ids i)) (range k) := by
    intro i hi j hj he
    have hi' : i < k := by simpa using hi
    have hj' : j < k := by simpa using hj
    exact hids.inj i j hi' hj' (G.inj _ _ (hids.lt i hi') (hids.lt j hj') he)
  obtain ⟨Af, eF, sF, hF⟩ := G.fft (fresh mem n) dA.buf (by simp) sD vD
  rw [pD] at hF
  have hA0 : ∀ i, i < k → S.φ (gt Af (gt ids i)) ≠ 0 := by
    intro i hi
    rw [(hF _ (hids.lt i hi)).2]
    exact locator_deriv_ne hinj hi
  obtain ⟨iv, eI, sI, hI⟩ := initInv_spec G.full (inv_A_i := fresh mem k) (z := z) hids.size.ge hids.lt sv.ge
    (fun i hi => (hv i hi).1) sF (fun i hi => (hF i hi).1) hA0 (fun i hi => by rw [(hv i hi).2]; exact hz i hi) (by simp)
  let C0 : Ctx := {
    vx_zero := z, props_indices := Array.replicate props.size 0, k := k, n := n, len_2k := len, fragments_ids := ids, A := A,
    A_fft_2k := fresh mem len, inv_A_i := iv, vec1_n := Array.replicate n 0, vec2_n := Array.replicate n 0,
    vec1_2k := fresh mem len, vec2_2k := fresh mem len }
  refine ⟨⟨C0, (Poly.mk' (fresh mem k)).zero_fill⟩, ?_, ?_⟩
  · unfold init_context_dec Ctx.mk'
    rw [G.n_data, G.hn, ev, ok_bind]
    simp only
    rw [elen, ok_bind, eA, ok_bind]
    simp only
    rw [eF, ok_bind, eI, ok_bind]
    rfl
  · refine ⟨rfl, hz, hzk, oA, sA, degA, pA, by simpa using sI, ?_, by simp [C0], by simp [Poly.zero_fill, Poly.mk'],
      by simp [Poly.zero_fill, Poly.mk'], ?_⟩
    · intro i hi
      refine ⟨(hI i hi).1, ?_⟩
      rw [(hI i hi).2, (hF _ (hids.lt i hi)).2, (hv i hi).2]
    · simp only [Poly.zero_fill, Poly.mk']; omega

theorem set_raw {P : Poly} {e x : Nat} (h : e < P.buf.size) :
    P.set e x = .ok ⟨P.buf.setIfInBounds e x, if (e : Int) > P.degree ∧ x > 0 then (e : Int) else P.degree⟩ := by
  unfold Poly.set; rw [Poly.wrI_ok h]; rfl

theorem coefS_spec {F : GF} [F.Plain] {S : F.Sim K} (hF : S.Full) {vx v1 : Array Nat} {z : Option Nat} {k : Nat} (hvs : k ≤ vx.size) (h1s : k ≤ v1.size)
    (hv : ∀ i, i < k → S.V (gt vx i)) (h1 : ∀ i, i < k → S.V (gt v1 i)) (hz : ∀ i, i < k → (some i = z ↔ S.φ (gt vx i) = 0)) (j : Nat) :
    ∃ r, coefS F vx v1 z k j = .ok r ∧ S.V r ∧
      S.φ r = ∑ i ∈ range k, (if some i = z then 0 else S.φ (gt v1 i)) * (S.φ (gt vx i))⁻¹ ^ j := by
  unfold coefS
  exact forN_inv (n := k) (s := 0) (I := fun t r => S.V r ∧
      S.φ r = ∑ i ∈ range t, (if some i = z then 0 else S.φ (gt v1 i)) * (S.φ (gt vx i))⁻¹ ^ j)
    ⟨S.zero.1, by simpa using S.zero.2⟩ (by
      rintro t r ht ⟨i1, i2⟩
      rw [sum_range_succ]
      by_cases hc : some t = z
      · refine ⟨r, by rw [if_pos hc]; rfl, i1, ?_⟩
        rw [if_pos hc, zero_mul, add_zero, i2]
      · rw [if_neg hc, if_neg hc]
        have hx := S.exp (e := j) (hv t ht)
        have h0 : S.φ (gt vx t) ≠ 0 := fun h => hc ((hz t ht).2 h)
        obtain ⟨y, ey, yV, yφ⟩ := S.inv hx.1 (hF.u hx.1 (by rw [hx.2]; exact pow_ne_zero _ h0))
        have hm := S.mul (h1 t ht) yV
        have ha := S.add i1 hm.1
        refine ⟨_, by rw [rd_gt (by omega), ok_bind, ey, ok_bind, rd_gt (by omega), ok_bind]; rfl, ha.1, ?_⟩
        rw [ha.2, i2, hm.2, yφ, hx.2, inv_pow])

/-- `decode_apply` finds the coefficients of the polynomial of degree below `k` that takes the given values at the points of the
received fragments. -/
theorem decode_apply_spec (G : Good c S w k m n pt) {C : Context} {ids : Array Nat} (hC : CGood S C k n pt ids) (hids : ValidIds k n ids)
    {output words : Array Nat} (hout : output.size = k) (hwords : k ≤ words.size) (hwV : ∀ i, i < k → S.V (gt words i))
    {P : K[X]} (hP : P.degree < k) (hPw : ∀ i, i < k → S.φ (gt words i) = P.eval (pt (gt ids i))) :
    ∃ C' r, decode_apply c C output words = .ok (C', r) ∧ r.size = k ∧ CGood S C' k n pt ids ∧
      ∀ i, i < k → S.V (gt r i) ∧ S.φ (gt r i) = P.coeff i := by
  have hk := G.kpos
  have hkn := G.kn
  set x : Nat → K := fun i => pt (gt ids i) with hx
  have hinj : Set.InjOn x (range k) := by
    intro i hi j hj he
    have hi' : i < k := by simpa using hi
    have hj' : j < k := by simpa using hj
    exact hids.inj i j hi' hj' (G.inj _ _ (hids.lt i hi') (hids.lt j hj') he)
  set q : Nat → K := fun i => P.eval (x i) * ((derivative (locator k x)).eval (x i))⁻¹ with hq
  obtain ⟨vx, z', ev, sv, hv, _, _⟩ := points_spec G hids (vx := Array.replicate k 0) (by simp)
  -- n_i
  obtain ⟨N, eN, sN, hN⟩ := forN_inv (n := k) (s := Array.replicate C.ctx.vec1_n.size 0) (f := fun i v => do
      let x ← rd words i
      let a ← rd C.ctx.inv_A_i i
      wr v i (c.base.F.mul x a))
    (I := fun t (v : Array Nat) => v.size = n ∧ ∀ i, i < t → gt v i = c.base.F.mul (gt words i) (gt C.ctx.inv_A_i i))
    ⟨by simp [hC.v1n], by simp⟩ (by
      rintro t v ht ⟨i1, i2⟩
      refine ⟨_, by rw [rd_gt (by omega), ok_bind, rd_gt (by rw [hC.invSize]; exact ht), ok_bind, wr_ok (by omega)], by simpa using i1, ?_⟩
      intro i hi
      rw [gt_set (by omega)]
      split
      · rename_i h; rw [h]
      · exact i2 i (by omega))
  have hN' : ∀ i, i < k → S.V (gt N i) ∧ S.φ (gt N i) = if some i = C.ctx.vx_zero then q i else q i * (x i)⁻¹ := by
    intro i hi
    have hm := S.mul (hwV i hi) (hC.inv i hi).1
    rw [hN i hi]
    refine ⟨hm.1, ?_⟩
    rw [hm.2, hPw i hi, (hC.inv i hi).2]
    split
    · rw [mul_one]
    · rw [mul_inv, ← mul_assoc]
  set e : Nat → K := fun i => if some i = C.ctx.vx_zero then 0 else q i * (x i)⁻¹ with he
  have hzx : ∀ i, i < k → (some i = C.ctx.vx_zero ↔ S.φ (gt vx i) = 0) := fun i hi => by rw [(hv i hi).2]; exact hC.zero i hi
  have hcoef : ∀ j, ∃ r, coefS c.base.F vx N C.ctx.vx_zero k j = .ok r ∧ S.V r ∧ S.φ r = ∑ i ∈ range k, e i * (x i)⁻¹ ^ j := by
    intro j
    haveI := G.plain
    obtain ⟨r, er, rV, rφ⟩ := coefS_spec G.full (z := C.ctx.vx_zero) sv.ge (by omega : k ≤ N.size) (fun i hi => (hv i hi).1)
      (fun i hi => (hN' i hi).1) hzx j
    refine ⟨r, er, rV, ?_⟩
    rw [rφ]
    refine sum_congr rfl fun i hi => ?_
    have hi' := mem_range.mp hi
    rw [(hv i hi').2]
    congr 1
    simp only [he]
    split
    · rfl
    · rename_i h; rw [(hN' i hi').2, if_neg h]
  -- the series
  obtain ⟨S1, eS1, sS1, loS1, hiS1, topS1, hS1⟩ := forN_inv (n := k) (s := C.S) (f := fun j S => do
      let val ← coefS c.base.F vx N C.ctx.vx_zero k j
      S.set j val)
    (I := fun t (P : Poly) => P.buf.size = k ∧ -1 ≤ P.degree ∧ P.degree < k ∧ (∀ i : Nat, i < t → P.degree < i → gt P.buf i = 0) ∧
      ∀ j, j < t → S.V (gt P.buf j) ∧ S.φ (gt P.buf j) = ∑ i ∈ range k, e i * (x i)⁻¹ ^ j)
    ⟨hC.Ssize, hC.Slo, hC.Shi, by simp, by simp⟩ (by
      rintro t Q ht ⟨i1, i2, i3, i4, i5⟩
      obtain ⟨r, er, rV, rφ⟩ := hcoef t
      refine ⟨_, by rw [er, ok_bind, set_raw (by omega)], by simpa using i1, ?_, ?_, ?_, ?_⟩
      · simp only; split <;> omega
      · simp only; split <;> omega
      · intro i hi hd
        simp only at hd ⊢
        rw [gt_set (by omega)]
        split at hd
        · omega
        · rename_i hc
          by_cases hit : i = t
          · subst hit; rw [if_pos rfl]; omega
          · rw [if_neg hit]; exact i4 i (by omega) hd
      · intro j hj
        simp only
        rw [gt_set (by omega)]
        by_cases hjt : j = t
        · subst hjt; rw [if_pos rfl]; exact ⟨rV, rφ⟩
        · rw [if_neg hjt]; exact i5 j (by omega))
  have oS1 : S1.Ok S := by
    refine ⟨loS1, by omega, ?_, ?_⟩
    · intro i
      by_cases hi : i < k
      · exact (hS1 i hi).1
      · rw [gt_oob (by omega)]; exact S.zero.1
    · intro i hi
      by_cases hik : i < k
      · exact topS1 i hik hi
      · rw [gt_oob (by omega)]
  have pS1 : polyOf S S1.buf = series k x e := by
    unfold polyOf series
    rw [sS1]
    exact sum_congr rfl fun j hj => by rw [(hS1 j (mem_range.mp hj)).2]
  obtain ⟨S2, eS2, sS2, dS2, vS2, cS2, _⟩ := Poly.mul_spec oS1 hC.AOk (deg_out := k - 1) (by omega) (by rw [hC.ASize]; omega)
  have hmain : ∀ j, j < k → S.φ (gt S2.buf j) = P.coeff j + ∑ i ∈ range k, if some i = C.ctx.vx_zero then q i * (locator k x).coeff (j + 1) else 0 := by
    intro j hj
    rw [cS2 j (by omega), pS1, hC.A, mul_comm]
    have hL := locator_mul_series_coeff_zero (x := x) hinj hP (c := e) (z := C.ctx.vx_zero) hC.zero
      (fun i hi h => by simp only [he]; rw [if_pos ((hC.zero i hi).2 h)])
      (fun i hi h => by simp only [he, hq]; rw [if_neg (fun h' => h ((hC.zero i hi).1 h')), mul_inv, mul_assoc]) hj
    rw [hL, G.neg]
  -- the zero point
  obtain ⟨S3, eS3, sS3, loS3, hiS3, hS3⟩ : ∃ S3, addZero c.base.F C.ctx.A S2 N C.ctx.vx_zero = Except.ok S3 ∧ S3.buf.size = k ∧ -1 ≤ S3.degree ∧ S3.degree < k ∧
        ∀ j, j < k → S.V (gt S3.buf j) ∧ S.φ (gt S3.buf j) = P.coeff j := by
    rcases hz : C.ctx.vx_zero with _ | z
    · refine ⟨S2, rfl, by omega, by omega, by omega, fun j hj => ⟨vS2 j, ?_⟩⟩
      rw [hmain j hj, hz]; simp
    · have hzk := hC.zlt z hz
      have hxz : x z = 0 := (hC.zero z hzk).1 hz.symm
      have hA0 : gt C.ctx.A.buf 0 = 0 := by
        rw [← G.full.eq_zero (hC.AOk.V 0), ← polyOf_coeff, hC.A, coeff_zero_eq_eval_zero]
        unfold locator
        rw [eval_prod]
        exact prod_eq_zero (mem_range.mpr hzk) (by rw [eval_sub, eval_X, eval_C, zero_sub, neg_eq_zero]; exact hxz)
      have hsum : ∀ j, ∑ i ∈ range k, (if some i = C.ctx.vx_zero then q i * (locator k x).coeff (j + 1) else 0) = q z * (locator k x).coeff (j + 1) := by
        intro j
        rw [sum_eq_single z]
        · rw [if_pos hz.symm]
        · intro i _ hne
          rw [if_neg]
          intro h
          rw [hz] at h
          exact hne (Option.some.inj h)
        · intro h; exact absurd (mem_range.mpr hzk) h
      have hNz := hN' z hzk
      rw [if_pos hz.symm] at hNz
      unfold addZero
      simp only
      rw [rd_gt (by rw [hC.ASize]; omega), ok_bind, hA0]
      simp only [cassert, decide_true, if_true, ok_bind]
      rw [rd_gt (by omega), ok_bind, hC.ADeg, Int.toNat_natCast]
      obtain ⟨S3, e3, i1, i2, i3, i4, _⟩ := forN_inv (n := k) (s := S2) (f := fun t S => do
          let s ← rd S.buf t
          let a ← rd C.ctx.A.buf (t + 1)
          S.set t (c.base.F.add s (c.base.F.mul (gt N z) a)))
        (I := fun t (Q : Poly) => Q.buf.size = k ∧ -1 ≤ Q.degree ∧ Q.degree < k ∧
          (∀ j, j < t → S.V (gt Q.buf j) ∧ S.φ (gt Q.buf j) = P.coeff j) ∧ ∀ j, t ≤ j → gt Q.buf j = gt S2.buf j)
        ⟨by omega, by omega, by omega, by simp, by simp⟩ (by
          rintro t Q ht ⟨i1, i2, i3, i4, i5⟩
          have hm := S.mul hNz.1 (hC.AOk.V (t + 1))
          have ha := S.add (vS2 t) hm.1
          refine ⟨_, by rw [rd_gt (by omega), ok_bind, rd_gt (by rw [hC.ASize]; omega), ok_bind, set_raw (by omega)], by simpa using i1, ?_, ?_, ?_, ?_⟩
          · simp only; split <;> omega
          · simp only; split <;> omega
          · intro j hj
            simp only
            rw [gt_set (by omega)]
            by_cases hjt : j = t
            · subst hjt
              rw [if_pos rfl, i5 j le_rfl]
              refine ⟨ha.1, ?_⟩
              rw [ha.2, hm.2, hmain j ht, hsum, hNz.2, ← polyOf_coeff, hC.A, add_assoc]
              rw [add_eq_left, ← G.neg (q z * _), neg_add_eq_zero, G.neg]
            · rw [if_neg hjt]; exact i4 j (by omega)
          · intro j hj
            simp only
            rw [gt_set (by omega), if_neg (by omega)]
            exact i5 j (by omega))
      exact ⟨S3, e3, i1, i2, i3, i4⟩
  obtain ⟨r, er, sr, hr⟩ := forN_inv (n := k) (s := output) (f := fun i output => do
      let x ← rd S3.buf i
      wr output i x)
    (I := fun t (r : Array Nat) => r.size = k ∧ ∀ i, i < t → gt r i = gt S3.buf i)
    ⟨hout, by simp⟩ (by
      rintro t r ht ⟨i1, i2⟩
      refine ⟨_, by rw [rd_gt (by omega), ok_bind, wr_ok (by omega)], by simpa using i1, ?_⟩
      intro i hi
      rw [gt_set (by omega)]
      split
      · rename_i h; rw [h]
      · exact i2 i (by omega))
  refine ⟨{ ctx := { C.ctx with vec1_n := N }, S := S3 }, r, ?_, sr, ?_, fun i hi => by rw [hr i hi]; exact hS3 i hi⟩
  · unfold decode_apply
    simp only
    rw [G.n_data, hC.idsEq, ev, ok_bind]
    simp only
    rw [eN, ok_bind, eS1, ok_bind, eS2, ok_bind, eS3, ok_bind, er, ok_bind]
    rfl
  · exact ⟨hC.idsEq, hC.zero, hC.zlt, hC.AOk, hC.ASize, hC.ADeg, hC.A, hC.invSize, hC.inv, sN, sS3, loS3, hiS3⟩

/-- word `f` of the codeword of `a` -/
def sym (c : Code) (a : Array Nat) (f : Nat) : Nat := evalAt c.base.F a (gt c.betas f)

theorem row_V (G : Good c S w k m n pt) {a : Array Nat} (ha : IsRow w k a) : ∀ j, S.V (gt a j) := by
  intro j
  by_cases hj : j < k
  · exact (G.val _).mpr (ha.2 j hj)
  · rw [gt_oob (by rw [ha.1]; omega)]; exact S.zero.1

theorem sym_spec (G : Good c S w k m n pt) {a : Array Nat} (ha : IsRow w k a) {f : Nat} (hf : f < n) :
    S.V (sym c a f) ∧ S.φ (sym c a f) = (polyOf S a).eval (pt f) := by
  haveI := G.plain
  have h := Additive.evalAt_sem (S := S) (x := a) (y := gt c.betas f) (row_V G ha) (G.bet f hf).1
  unfold sym
  exact ⟨h.1, by rw [h.2, (G.bet f hf).2]⟩

theorem hspec' (G : Good c S w k m n pt) : (fec c).HSpec (sym c) (fun _ _ => none) (fun _ => ∃ l, c.base.F.codeLenHC (2 * k) = .ok l) := by
  have hk := G.kpos
  have hkn := G.kn
  have hle := G.le
  have hsys := G.sys
  refine ⟨?_, ?_, ?_, ?_, ?_, ?_, ?_, ?_⟩
  · show WordSize c.base.word_size; rw [G.word]; exact G.hw
  · show 0 < c.base.n_data; rw [G.n_data]; exact hk
  · show c.base.code_len = c.base.n_data + c.base.n_parities; rw [G.code_len, G.n_data, G.n_parities]
  · show c.base.n_outputs = if c.base.sys then c.base.n_parities else c.base.code_len
    rw [hsys, G.n_outputs, G.code_len]; rfl
  · show c.base.n_outputs ≤ c.base.n; rw [G.n_outputs, G.hn]; exact hle
  · intro a f ha hf
    replace ha : IsRow c.base.word_size c.base.n_data a := ha
    replace hf : f < c.base.n_outputs := hf
    show _ < 256 ^ c.base.word_size
    rw [G.word] at ha ⊢
    rw [G.n_data] at ha
    rw [G.n_outputs] at hf
    exact (G.val _).mp (sym_spec G ha (by omega)).1
  · intro out props off a h1 h2 h3
    replace h1 : out.size = c.base.n := h1
    replace h2 : props.size = c.base.n_outputs := h2
    replace h3 : IsRow c.base.word_size c.base.n_data a := h3
    show ∃ out' props', (c.base.transform out a >>= fun o => pure (o, props)) = .ok (out', props') ∧ out'.size = c.base.n ∧
      props'.size = c.base.n_outputs ∧ ∀ f, f < c.base.n_outputs → gt out' f = sym c a f ∧ gt props' f = gt props f
    rw [G.hn] at h1 ⊢
    rw [G.word, G.n_data] at h3
    have hv := row_V G h3
    obtain ⟨r, er, sr, hr⟩ := G.fft out (zeroExtended a n) h1 (by simp) (fun i => by
      by_cases hi : i < n
      · rw [zeroExtended_gt hi]; exact hv i
      · rw [gt_oob (by simp; omega)]; exact S.zero.1)
    rw [polyOf_zeroExtended S (by rw [h3.1]; omega)] at hr
    refine ⟨r, props, ?_, sr, h2, fun f hf => ⟨?_, rfl⟩⟩
    · unfold FecBase.transform; rw [G.hn, er]; rfl
    · rw [G.n_outputs] at hf
      have hs := sym_spec G h3 (f := f) (by omega)
      exact G.full.inj (hr f (by omega)).1 hs.1 (by rw [(hr f (by omega)).2, hs.2])
  · intro rows T ids props mem hrows hids hlen h3 _
    replace hrows : ∀ t, t < T → IsRow c.base.word_size c.base.n_data (rows t) := hrows
    replace hids : ValidIds c.base.n_data (if c.base.sys then c.base.n_data + c.base.n_outputs else c.base.n_outputs) ids := hids
    rw [hsys, if_neg (by simp), G.n_data, G.n_outputs] at hids
    have hids' : ValidIds k n ids := ⟨hids.size, hids.inj, fun i hi => by have := hids.lt i hi; omega⟩
    rw [G.word, G.n_data] at hrows
    obtain ⟨C, eC, gC⟩ := init_context_dec_spec G hlen (props := props) hids' mem
    refine ⟨fun C _ => CGood S C k n pt ids, C, _, eC, gC, ?_⟩
    intro t C out words ht hC hout hws hwords
    replace hout : out.size = c.base.n_data := hout
    replace hws : words.size = if c.base.sys then c.base.n_data else c.base.code_len := hws
    replace hwords : ∀ i, i < c.base.n_data → gt words i = fragVal c.base.sys c.base.n_data (sym c) (rows t) (gt ids i) := hwords
    show ∃ C' r, decode_apply c C out words = .ok (C', r) ∧ r.size = c.base.n_data ∧ CGood S C' k n pt ids ∧
      ∀ i, i < c.base.n_data → gt r i = gt (rows t) i
    rw [hsys, G.n_data] at hwords
    rw [hsys, if_neg (by simp), G.code_len] at hws
    rw [G.n_data] at hout ⊢
    have hrow := hrows t ht
    have hs : ∀ i, i < k → _ := fun i hi => sym_spec G hrow (hids'.lt i hi)
    have hwords' : ∀ i, i < k → gt words i = sym c (rows t) (gt ids i) := fun i hi => by
      rw [hwords i hi]; unfold fragVal; rfl
    obtain ⟨C', r, er, sr, gr, hr⟩ := decode_apply_spec G hC hids' (output := out) (words := words) hout (by omega)
      (fun i hi => by rw [hwords' i hi]; exact (hs i hi).1) (P := polyOf S (rows t))
      (by have := polyOf_degree_lt S (rows t); rwa [hrow.1] at this)
      (fun i hi => by rw [hwords' i hi]; exact (hs i hi).2)
    refine ⟨C', r, er, sr, gr, fun i hi => ?_⟩
    exact G.full.inj (hr i hi).1 (row_V G hrow i) (by rw [(hr i hi).2, polyOf_coeff])

theorem hspec (G : Good c S w k m n pt) (hlen : ∃ l, c.base.F.codeLenHC (2 * k) = .ok l) : (fec c).HSpec (sym c) (fun _ _ => none) :=
  have h := hspec' G
  ⟨h.w, h.kpos, h.cl, h.nout, h.outs, h.lt, h.enc, fun mem h1 h2 _ => h.dec mem h1 h2 hlen⟩

end RsGf2nFftAdd
end Quad
