import Verif.Model.FecGf2n
import Verif.Lemmas.FecSelect
import Verif.Lemmas.MatCauchy
import Verif.Lemmas.BinSpec

/-!
# The matrix codes over GF(2^n) meet `Fec.HSpec`
-/

namespace Quad.RsGf2n
open Quad Mat Finset

variable {K : Type} [Field K] {F : GF} [F.Plain] {S : F.Sim K} {m k : Nat} {f : Nat → Nat → Nat} {mat : Mat}

/-- one row of `decode_mat` -/
theorem setRow {D : Mat} {g : Nat → Nat → Nat} (h : Is D k k g) {fi : Nat} (hfi : fi < k) {body : Nat → Mat → Res Mat}
    (v : Nat → Nat) (hb : ∀ j M, j < k → body j M = M.set fi j (v j)) :
    ∃ D', forN k D body = .ok D' ∧ Is D' k k (fun i j => if i = fi then v j else g i j) := by
  refine h.rowLoop (row := fi) _ ?_
  intro j M' hj hM
  rw [hb j M' hj]
  obtain ⟨M1, e1, i1⟩ := hM.set hfi hj (v j)
  refine ⟨M1, e1, i1.congr ?_⟩
  intro i' j' _ _
  by_cases a : i' = fi
  · subst a
    by_cases b : j' = j
    · subst b; simp
    · simp [b]
  · simp [a]

/-- `decode_mat` before its inversion -/
theorem build_spec (hm : Is mat m k f) {ids : Array Nat} (hids : ValidIds k (k + m) ids) {D0 : Mat} {g0 : Nat → Nat → Nat} (h0 : Is D0 k k g0) :
    ∃ D, decode_rows D0 mat k ids = .ok D ∧ Is D k k (pick k f (gt ids)) := by
  unfold decode_rows
  obtain ⟨D, e, i⟩ := forN_inv (n := k) (s := D0) (f := fun fi D => do
        let id ← rd ids fi
        if id < k then decode_add_data D mat.n_cols fi id else decode_add_parities D mat fi (id - k))
    (I := fun t D => Is D k k (fun i j => if i < t then pick k f (gt ids) i j else g0 i j))
    (h0.congr fun i j _ _ => by simp) (by
      intro fi D hfi hD
      rw [rd_gt (by rw [hids.size]; exact hfi), ok_bind]
      have hlt := hids.lt fi hfi
      have key : ∃ D', (if gt ids fi < k then decode_add_data D mat.n_cols fi (gt ids fi)
          else decode_add_parities D mat fi (gt ids fi - k)) = .ok D' ∧
          Is D' k k (fun i j => if i = fi then pick k f (gt ids) fi j else if i < fi then pick k f (gt ids) i j else g0 i j) := by
        split
        · rename_i hd
          unfold decode_add_data
          rw [hm.cols]
          refine setRow hD hfi (fun j => pick k f (gt ids) fi j) ?_
          intro j M _
          simp only [pick, if_pos hd]
          by_cases c : gt ids fi = j
          · rw [if_pos c, if_pos c.symm]
          · rw [if_neg c, if_neg (fun h => c h.symm)]
        · rename_i hd
          unfold decode_add_parities
          rw [hm.cols]
          refine setRow hD hfi (fun j => pick k f (gt ids) fi j) ?_
          intro j M hj
          rw [hm.get (by omega) hj, ok_bind]
          simp only [pick, if_neg hd]
      obtain ⟨D', e, h⟩ := key
      refine ⟨D', e, h.congr ?_⟩
      intro i j _ _
      by_cases a : i = fi
      · subst a; simp
      · by_cases b : i < fi
        · rw [if_neg a, if_pos b, if_pos (by omega)]
        · rw [if_neg a, if_neg b, if_neg (by omega)])
  exact ⟨D, e, i.congr fun i j hi _ => by simp [hi]⟩

theorem pick_V (H : S.Full) (hv : ∀ i j, i < m → j < k → S.V (f i j)) {ids : Array Nat} (hids : ValidIds k (k + m) ids)
    {i j : Nat} (hi : i < k) (hj : j < k) : S.V (pick k f (gt ids) i j) := by
  unfold pick
  have := hids.lt i hi
  split
  · split
    · exact H.v1.1
    · exact S.zero.1
  · exact hv _ _ (by omega) hj

/-- `decode_build`: the inverse of the selected rows, or `DomainError` -/
theorem init_dec_spec (H : S.Full) (hm : Is mat m k f) (hv : ∀ i j, i < m → j < k → S.V (f i j)) {ids : Array Nat}
    (hids : ValidIds k (k + m) ids) (props : Array Properties) (mem : Nat → Nat) :
    (IsUnit (toM S k (pick k f (gt ids))).det → ∃ D g, init_dec F mat k ids props mem = .ok (D, props) ∧ Is D k k g ∧
      (∀ i j, i < k → j < k → S.V (g i j)) ∧ toM S k g = (toM S k (pick k f (gt ids)))⁻¹) ∧
    (¬ IsUnit (toM S k (pick k f (gt ids))).det → init_dec F mat k ids props mem = .error (.throws .domainError)) := by
  obtain ⟨D, e, hD⟩ := build_spec hm hids (mk'_is k k mem)
  obtain ⟨h1, h2⟩ := inv_spec H hD (fun i j hi hj => pick_V H hv hids hi hj) mem
  unfold init_dec
  rw [e, ok_bind]
  constructor
  · intro hu
    obtain ⟨D', g, e', q1, q2, q3⟩ := h1 hu
    exact ⟨D', g, by rw [e', ok_bind]; rfl, q1, q2, q3⟩
  · intro hu
    rw [h2 hu]; rfl

/-- the parity words of a row of data -/
def stored (F : GF) (mat : Mat) (m : Nat) (a : Array Nat) (f : Nat) : Nat :=
  match mat.mul F (Array.replicate m 0) a with
  | .ok o => gt o f
  | .error _ => 0

theorem stored_spec (hk : 0 < k) (hm : Is mat m k f) (hv : ∀ i j, i < m → j < k → S.V (f i j)) {a : Array Nat} (hs : a.size = k)
    (ha : ∀ j, j < k → S.V (gt a j)) {i : Nat} (hi : i < m) :
    S.V (stored F mat m a i) ∧ S.φ (stored F mat m a i) = ∑ j ∈ range k, S.φ (f i j) * S.φ (gt a j) := by
  obtain ⟨o, e, _, h⟩ := mul_sem hm hk hv (out := Array.replicate m 0) hs (by simp) ha
  unfold stored
  rw [e]
  exact h i hi

/-- the words of a selection of fragments are `D` times the data -/
theorem words_eq (H : S.Full) (hk : 0 < k) (hm : Is mat m k f) (hv : ∀ i j, i < m → j < k → S.V (f i j)) {a : Array Nat}
    (hs : a.size = k) (ha : ∀ j, j < k → S.V (gt a j)) {ids : Array Nat} (hids : ValidIds k (k + m) ids) {i : Nat} (hi : i < k) :
    S.V (fragVal true k (stored F mat m) a (gt ids i)) ∧
    S.φ (fragVal true k (stored F mat m) a (gt ids i)) = ∑ j ∈ range k, S.φ (pick k f (gt ids) i j) * S.φ (gt a j) := by
  have hlt := hids.lt i hi
  unfold fragVal pick
  simp only [if_true]
  by_cases c : gt ids i < k
  · simp only [if_pos c]
    refine ⟨ha _ c, ?_⟩
    rw [sum_eq_single (gt ids i)]
    · rw [if_pos rfl, H.v1.2, one_mul]
    · intro j _ hj
      rw [if_neg hj, S.zero.2, zero_mul]
    · intro h; exact absurd (mem_range.mpr c) h
  · simp only [if_neg c]
    exact stored_spec hk hm hv hs ha (by omega)

/-- the inverse of the selected rows gives the data -/
theorem inverse_mul {D : Mat} {g : Nat → Nat → Nat} (H : S.Full) (hk : 0 < k) (i1 : Is D k k g) (v1 : ∀ i j, i < k → j < k → S.V (g i j))
    {A : Nat → Nat → Nat} (hu : IsUnit (toM S k A).det) (e1 : toM S k g = (toM S k A)⁻¹) {a out words : Array Nat}
    (hs : a.size = k) (ha : ∀ j, j < k → S.V (gt a j)) (hout : out.size = k) (hws : words.size = k)
    (hwd : ∀ i, i < k → S.V (gt words i) ∧ S.φ (gt words i) = ∑ j ∈ range k, S.φ (A i j) * S.φ (gt a j)) :
    D.mul F out words = .ok a := by
  obtain ⟨o, eo, so, ho⟩ := mul_sem i1 hk v1 (out := out) hws hout (fun j hj => (hwd j hj).1)
  rw [eo]
  congr 1
  refine gt_ext (by omega) (fun i hi => ?_)
  rw [so] at hi
  refine H.inj (ho i hi).1 (ha i hi) ?_
  rw [(ho i hi).2]
  have hmul := Matrix.nonsing_inv_mul _ hu
  rw [← e1] at hmul
  have hx := congrFun (congrArg (fun M => Matrix.mulVec M (fun j : Fin k => S.φ (gt a j))) hmul) ⟨i, hi⟩
  simp only [Matrix.one_mulVec] at hx
  rw [← hx, ← Matrix.mulVec_mulVec, Matrix.mulVec, dotProduct,
    ← Fin.sum_univ_eq_sum_range (fun j => S.φ (g i j) * S.φ (gt words j))]
  refine sum_congr rfl fun j _ => ?_
  rw [(hwd j j.2).2, Matrix.mulVec, dotProduct,
    ← Fin.sum_univ_eq_sum_range (fun l => S.φ (A j l) * S.φ (gt a l))]
  rfl

theorem hspec (H : S.Full) {w : Nat} (hw : WordSize w) (hV : ∀ a, S.V a ↔ a < 256 ^ w) (hk : 0 < k) (hm : Is mat m k f)
    (hv : ∀ i j, i < m → j < k → S.V (f i j)) :
    (fec F w k m mat).HSpec (stored F mat m) (fun _ _ => none)
      (fun ids => ValidIds k (k + m) ids → IsUnit (toM S k (pick k f (gt ids))).det) := by
  have hrow : ∀ {a : Array Nat}, IsRow w k a → a.size = k ∧ ∀ j, j < k → S.V (gt a j) :=
    fun h => ⟨h.1, fun j hj => (hV _).mpr (h.2 j hj)⟩
  refine ⟨hw, hk, rfl, rfl, le_rfl, ?_, ?_, ?_⟩
  · intro a i ha hi
    exact (hV _).mp (stored_spec hk hm hv (hrow ha).1 (hrow ha).2 hi).1
  · intro out props off a h1 h2 h3
    obtain ⟨o, e, s, h⟩ := mul_sem hm hk hv (out := out) (hrow h3).1 h1 (hrow h3).2
    refine ⟨o, props, ?_, s, h2, ?_⟩
    · show (mat.mul F out a >>= fun o => pure (o, props)) = _
      rw [e]; rfl
    · intro i hi
      have h4 := stored_spec hk hm hv (hrow h3).1 (hrow h3).2 (i := i) hi
      exact ⟨H.inj (h i hi).1 h4.1 ((h i hi).2.trans h4.2.symm), rfl⟩
  · intro rows T ids props mem hrows hids hA h3 _
    change ValidIds k (k + m) ids at hids
    obtain ⟨D, g, e, i1, v1, e1⟩ := (init_dec_spec H hm hv hids props mem).1 (hA hids)
    refine ⟨fun C _ => C = D, D, props, e, rfl, ?_⟩
    rintro t C out words ht rfl hout hws hwords
    change words.size = k at hws
    change out.size = k at hout
    have ha := hrow (hrows t ht)
    have hwd : ∀ i, i < k → S.V (gt words i) ∧
        S.φ (gt words i) = ∑ j ∈ range k, S.φ (pick k f (gt ids) i j) * S.φ (gt (rows t) j) := by
      intro i hi
      rw [hwords i hi]
      exact words_eq H hk hm hv ha.1 ha.2 hids hi
    refine ⟨C, rows t, ?_, ha.1, rfl, fun _ _ => rfl⟩
    show (C.mul F out words >>= fun o => pure (C, o)) = _
    rw [inverse_mul H hk i1 v1 (hA hids) e1 ha.1 ha.2 hout hws hwd]
    rfl

/-- preparing an object for the fragments `ids`, whatever was prepared before -/
theorem prepare_spec (H : S.Full) (hm : Is mat m k f) (hv : ∀ i j, i < m → j < k → S.V (f i j)) {D0 : Mat} {g0 : Nat → Nat → Nat}
    (h0 : Is D0 k k g0) {ids : Array Nat} (hids : ValidIds k (k + m) ids) (hu : IsUnit (toM S k (pick k f (gt ids))).det) (mem : Nat → Nat) :
    ∃ D g, Obj.prepare ⟨F, k, mat, D0⟩ ids mem = .ok ⟨F, k, mat, D⟩ ∧ Is D k k g ∧
      (∀ i j, i < k → j < k → S.V (g i j)) ∧ toM S k g = (toM S k (pick k f (gt ids)))⁻¹ := by
  obtain ⟨D, e, hD⟩ := build_spec hm hids h0
  obtain ⟨D', g, e', q⟩ := (inv_spec H hD (fun i j hi hj => pick_V H hv hids hi hj) mem).1 hu
  refine ⟨D', g, ?_, q⟩
  unfold Obj.prepare
  simp only [e, ok_bind, e']
  rfl

end Quad.RsGf2n

namespace Quad
open Finset

/-- a binary field object as the matrix functions need it -/
theorem BinExt.IsBinField.full {O : BinExt.Obj} {n low : Nat} {K : Type} [Field K] {r : K} (B : BinExt.IsBinField O n low K r) :
    B.sim.Full := ⟨B.sim_inj, rfl, fun _ h => h, fun ha hc => (B.good.mul_spec ha hc).1, fun e ha => B.good.expC_spec ha e⟩

theorem xor_two {t : Nat} (h : t % 4 < 2) : t ^^^ 2 = t + 2 := by
  have e1 : (t ^^^ 2) / 4 = t / 4 := by
    have := Nat.shiftRight_xor_distrib (a := t) (b := 2) (i := 2)
    rw [Nat.shiftRight_eq_div_pow, Nat.shiftRight_eq_div_pow, Nat.shiftRight_eq_div_pow] at this
    simpa using this
  have e2 : (t ^^^ 2) % 4 = t % 4 + 2 := by
    have h2 := Nat.xor_mod_two_pow (a := t) (b := 2) (n := 2)
    have : t % 4 = 0 ∨ t % 4 = 1 := by omega
    rw [show 2 ^ 2 = 4 from rfl] at h2
    rcases this with h' | h' <;> rw [h'] at h2 ⊢ <;> exact h2
  omega

theorem xor_one_le (i : Nat) : i ^^^ 1 ≤ i + 1 := by
  have e1 : (i ^^^ 1) / 2 = i / 2 := by
    have := Nat.shiftRight_xor_distrib (a := i) (b := 1) (i := 1)
    rw [Nat.shiftRight_eq_div_pow, Nat.shiftRight_eq_div_pow, Nat.shiftRight_eq_div_pow] at this
    simpa using this
  omega

namespace RsGf2n
open Mat

variable {O : BinExt.Obj} {n low : Nat} {K : Type} [Field K] {r : K}

theorem bin_ne (B : BinExt.IsBinField O n low K r) {m k : Nat} (hmk : k + m ≤ 2 ^ n) {i j : Nat} (hi : i < m) (hj : j < k) :
    B.sim.φ i + B.sim.φ (j + m) ≠ 0 := by
  have h1 := B.sim.add (a := i) (c := j + m) (show i < 2 ^ n by omega) (show j + m < 2 ^ n by omega)
  rw [← h1.2]
  intro h
  have := (B.full.eq_zero h1.1).mp h
  have e : i ^^^ (j + m) = 0 := this
  have := Nat.xor_eq_zero_iff.mp e
  omega

theorem bin_ne_one (B : BinExt.IsBinField O n low K r) {m k : Nat} (hmk : k + m ≤ 2 ^ n) {i j : Nat} (_ : 0 < i) (hj0 : 0 < j)
    (hi : i < m) (hj : j < k) : B.sim.φ i + B.sim.φ (j + m) ≠ 1 := by
  have h1 := B.sim.add (a := i) (c := j + m) (show i < 2 ^ n by omega) (show j + m < 2 ^ n by omega)
  rw [← h1.2]
  intro h
  have := (B.full.eq_one h1.1).mp h
  have e : i ^^^ (j + m) = 1 := this
  have e2 : j + m = i ^^^ 1 := by rw [← e, ← Nat.xor_assoc, Nat.xor_self, Nat.zero_xor]
  have := xor_one_le i
  omega

theorem bin_add_two (B : BinExt.IsBinField O n low K r) {t : Nat} (ht : t < 2 ^ n) (h2 : 2 < 2 ^ n) (h : t % 4 < 2) :
    B.sim.φ (t + 2) = B.sim.φ t + B.sim.φ 2 := by
  have h1 := B.sim.add (a := t) (c := 2) ht h2
  rw [← h1.2]
  show _ = B.sim.φ (t ^^^ 2)
  rw [xor_two h]

/-- the selected rows are invertible -/
def IdsOk (k m : Nat) (type : MatType) (ids : Array Nat) : Prop :=
  type = .vandermonde ∨ (∃ a, a < k ∧ gt ids a = 0) ∨ (∀ a, a < k → gt ids a ≠ k) ∨
    ((range k).filter (fun a => k ≤ gt ids a)).card ≤ 2

theorem mkObj_spec {b w k m : Nat} (hb : Spec.BinSupported b (8 * w)) (hw : w ≤ 16) (hk : 0 < k) (hmk : k + m ≤ 2 ^ (8 * w))
    (type : MatType) (mem : Nat → Nat) (junk : Nat → Nat → Nat) (junk3 : Nat → Nat → Nat → Nat) :
    haveI := fact_of (size_of hb.size)
    ∃ (O : BinExt.Obj) (B : BinExt.IsBinField O (8 * w) (BinExt.lowOf (8 * w)) (BinK (8 * w)) (binR (8 * w)))
      (mat : Mat) (f : Nat → Nat → Nat),
      mkObj b w k m type mem junk junk3 = .ok ⟨O.gf, k, mat, Mat.mk' k k mem⟩ ∧ Is mat m k f ∧
      (∀ i j, i < m → j < k → B.sim.V (f i j)) ∧
      (∀ ids, ValidIds k (k + m) ids → IdsOk k m type ids → IsUnit (toM B.sim k (pick k f (gt ids))).det) ∧
      (type = .cauchy → IsCauchy B.sim m k f) := by
  haveI := fact_of (size_of hb.size)
  obtain ⟨O, e, _, B⟩ := exists_binExt hb junk junk3
  have hV : ∀ t, t < m + k → B.sim.V t := fun t ht => show t < 2 ^ (8 * w) by omega
  have hne : ∀ i j, i < m → j < k → B.sim.φ i + B.sim.φ (j + m) ≠ 0 := fun i j hi hj => bin_ne B hmk hi hj
  have hmk' : ∀ mat, (match type with
      | .cauchy => (Mat.mk' m k mem).cauchy O.gf
      | .vandermonde => (Mat.mk' m k mem).vandermonde_suitable_for_ec O.gf mem) = .ok mat →
      mkObj b w k m type mem junk junk3 = .ok ⟨O.gf, k, mat, Mat.mk' k k mem⟩ := by
    intro mat hmat
    unfold mkObj cassert
    simp only [hw, decide_true, if_true, ok_bind]
    rw [← bind_assoc, e, ok_bind]
    cases type
    · simp only at hmat ⊢
      rw [hmat]; rfl
    · simp only at hmat ⊢
      rw [hmat]; rfl
  cases type with
  | vandermonde =>
    obtain ⟨M, f, e1, i1, v1, p, hp, hf⟩ := vandermonde_ec_spec B.full (mk'_is m k mem) hV mem
    refine ⟨O, B, M, f, hmk' M e1, i1, v1, ?_, by simp⟩
    intro ids hids _
    exact mds_of_lagrange B.full hV hp hf (gt ids) hids.lt hids.inj
  | cauchy =>
    obtain ⟨M, f, e1, i1, v1, hf⟩ := cauchy_spec B.full (mk'_is m k mem) hV hne
    refine ⟨O, B, M, f, hmk' M e1, i1, v1, ?_, fun _ => hf⟩
    intro ids hids hok
    refine cauchy_unit B.full hV hne (fun i j h1 h2 h3 h4 => bin_ne_one B hmk h1 h2 h3 h4) hf hids.lt hids.inj ?_
    rcases hok with h | h
    · cases h
    · exact h

theorem mk'_spec {b w k m : Nat} (hb : Spec.BinSupported b (8 * w)) (hw : w ≤ 16) (hk : 0 < k) (hmk : k + m ≤ 2 ^ (8 * w))
    (type : MatType) (mem : Nat → Nat) (junk : Nat → Nat → Nat) (junk3 : Nat → Nat → Nat → Nat) :
    haveI := fact_of (size_of hb.size)
    ∃ (O : BinExt.Obj) (B : BinExt.IsBinField O (8 * w) (BinExt.lowOf (8 * w)) (BinK (8 * w)) (binR (8 * w)))
      (mat : Mat) (f : Nat → Nat → Nat),
      RsGf2n.mk' b w k m type mem junk junk3 = .ok (fec O.gf w k m mat) ∧ Is mat m k f ∧
      (∀ i j, i < m → j < k → B.sim.V (f i j)) ∧
      (∀ ids, ValidIds k (k + m) ids → IdsOk k m type ids → IsUnit (toM B.sim k (pick k f (gt ids))).det) ∧
      (type = .cauchy → IsCauchy B.sim m k f) := by
  haveI := fact_of (size_of hb.size)
  obtain ⟨O, B, mat, f, e, h⟩ := mkObj_spec hb hw hk hmk type mem junk junk3
  refine ⟨O, B, mat, f, ?_, h⟩
  unfold RsGf2n.mk'
  rw [e]; rfl

end RsGf2n
end Quad
