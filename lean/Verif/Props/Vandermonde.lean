import Verif.Props.Params

/-!
# C48: Vandermonde matrices with more fragments than the field has elements

The constructor accepts exactly the codes with one data fragment and those with at most as many fragments as the field has elements; for
all others it reads outside a table.
-/

namespace Quad.Props
open Quad RingModN Spec

/-- multiplying by a word that is no element reads outside the table of logarithms -/
theorem mulC_ub {O : BinExt.Obj} {b n : Nat} (h : IsBinExt O b n) (hn : n ≤ 16) {x y : Nat} (hx : x ≠ 0) (hy : 2 ^ n ≤ y) : O.gf.mulC x y = ub := by
  obtain ⟨hs, hl⟩ := log_tables h hn
  have h2 := Nat.two_pow_pos n
  show O.F.mulR x y = ub
  unfold BinExt.mulR BinExt.mulLog
  rw [hs]
  simp only [Bool.false_eq_true, if_false]
  rw [if_neg (by omega)]
  have : rd O.F.gflog y = ub := by
    unfold rd
    rw [Array.getElem?_eq_none (by omega)]
  by_cases hx' : x < 2 ^ n
  · rw [rd_gt (by omega), ok_bind, this]; rfl
  · have : rd O.F.gflog x = ub := by
      unfold rd
      rw [Array.getElem?_eq_none (by omega)]
    rw [this]; rfl

theorem expC_zero {O : BinExt.Obj} (i : Nat) : O.gf.expC i 0 = .ok 1 := rfl
theorem expC_one {O : BinExt.Obj} (i : Nat) : O.gf.expC i 1 = .ok i := rfl

theorem expC_two {O : BinExt.Obj} {b n : Nat} (h : IsBinExt O b n) (hn : n ≤ 16) {y : Nat} (hy : 2 ^ n ≤ y) : O.gf.expC y 2 = ub := by
  have h2 := Nat.two_pow_pos n
  have := mulC_ub h hn (x := y) (by omega) hy
  show expQuickC O.F.mulR y 2 = ub
  have h3 : expQuickC O.F.mulR y 2 = (O.F.mulR y y >>= fun r => pure r) := rfl
  rw [h3, show O.F.mulR y y = ub from this]
  rfl

/-- more rows than elements and at least three columns -/
theorem vandermonde_ub {O : BinExt.Obj} {b n : Nat} (h : IsBinExt O b n) (hn : n ≤ 16) {R k : Nat} (hk : 3 ≤ k) (hR : 2 ^ n < R) (mem : Nat → Nat) :
    (Mat.mk' R k mem).vandermonde O.gf = ub := by
  haveI := h.fact
  have B := h.isBinField.2
  unfold Mat.vandermonde
  refine forN_fails (fun _ M => ∃ f, Mat.Is M R k f) (j := 2 ^ n) hR ⟨_, Mat.mk'_is R k mem⟩ ?_ ?_
  · rintro i M hi ⟨f, hM⟩
    rw [hM.cols]
    obtain ⟨M', e, hM'⟩ := forN_inv (n := k) (s := M) (f := fun j M => do
        let x ← O.gf.expC i j
        M.set i j x) (I := fun _ M => ∃ f, Mat.Is M R k f) ⟨f, hM⟩ (by
      rintro j M' hj ⟨f', hM'⟩
      obtain ⟨M'', e, h''⟩ := hM'.set (i := i) (by omega) hj (O.gf.exp i j)
      exact ⟨M'', by rw [B.full.expC j (show i < 2 ^ n from hi), ok_bind, e], _, h''⟩)
    exact ⟨M', e, hM'⟩
  · rintro M ⟨f, hM⟩
    rw [hM.cols]
    refine forN_fails (fun _ M => ∃ f, Mat.Is M R k f) (j := 2) (by omega) ⟨f, hM⟩ ?_ ?_
    · rintro j M hj ⟨f, hM⟩
      have : ∃ x, O.gf.expC (2 ^ n) j = .ok x := by
        rcases (by omega : j = 0 ∨ j = 1) with rfl | rfl
        · exact ⟨_, expC_zero _⟩
        · exact ⟨_, expC_one _⟩
      obtain ⟨x, ex⟩ := this
      obtain ⟨M', e, h'⟩ := hM.set (i := 2 ^ n) hR (show j < k by omega) x
      exact ⟨M', by rw [ex, ok_bind, e], _, h'⟩
    · rintro M _
      rw [expC_two h hn le_rfl]
      rfl

/-- the matrix of one column, or of two -/
theorem vandermonde_small {O : BinExt.Obj} {R k : Nat} (hk : k ≤ 2) (mem : Nat → Nat) :
    ∃ M, (Mat.mk' R k mem).vandermonde O.gf = .ok M ∧ Mat.Is M R k (fun i j => if j = 0 then 1 else i) := by
  unfold Mat.vandermonde
  exact (Mat.mk'_is R k mem).fillSet (v := fun i j _ => O.gf.expC i j) _ (fun i j _ hi hj _ => by
    rcases (by omega : j = 0 ∨ j = 1) with rfl | rfl
    · exact expC_zero _
    · exact expC_one _)

/-- two columns: the second step of the reduction leaves the table -/
theorem ecStep_ub {O : BinExt.Obj} {b n : Nat} (h : IsBinExt O b n) (hn : n ≤ 16) {R : Nat} (hR : 2 ^ n < R) {M : Mat}
    (hM : Mat.Is M R 2 (fun i j => if j = 0 then 1 else i)) : Mat.ecStep O.gf 1 M = ub := by
  haveI := h.fact
  have B := h.isBinField.2
  have h2 := Nat.two_pow_pos n
  have h1n : 1 < 2 ^ n := Nat.one_lt_two_pow (by have := h.ok.size; simp at this; omega)
  unfold Mat.ecStep
  obtain ⟨r, er, hr⟩ := hM.row_is_identity (i := 1) (by omega)
  have : r = false := by
    cases r with
    | false => rfl
    | true => have := hr.mp rfl 0 (by omega); simp at this
  rw [er, this, ok_bind, if_neg (by simp), hM.get (by omega) (by omega), ok_bind]
  simp only [Nat.one_ne_zero, if_false, ne_eq, not_true, if_false]
  show (pure M >>= _ : Res Mat) = ub
  rw [pure_bind, hM.cols]
  refine forN_first (by omega) ?_
  simp only [Nat.one_ne_zero, not_false_eq_true, if_true]
  rw [hM.get (by omega) (by omega), ok_bind]
  simp only [if_true, Nat.zero_ne_one, not_false_eq_true]
  unfold Mat.ec_transform2
  simp only [cassert, hM.rows, hM.cols, show 1 < R by omega, show 1 < 2 by omega, decide_true, if_true, ok_bind]
  rw [hM.get (by omega) (by omega), ok_bind]
  refine forN_fails (fun _ M => ∃ f, Mat.Is M R 2 f ∧ ∀ t, f t 1 = t) (j := 2 ^ n) hR ⟨_, hM, fun t => by simp⟩ ?_ ?_
  · rintro i M' hi ⟨f, hM', hf⟩
    obtain ⟨M'', e, h''⟩ := hM'.set (i := i) (j := 0) (by omega) (by omega) (O.gf.sub (f i 0) (O.gf.mul 1 i))
    refine ⟨M'', ?_, _, h'', fun t => by rw [if_neg (by omega)]; exact hf t⟩
    rw [hM'.get (by omega) (by omega), ok_bind, hM'.get (by omega) (by omega), ok_bind, hf i]
    simp only [if_true]
    rw [B.full.mulC (show 1 < 2 ^ n from h1n) (show i < 2 ^ n from hi), ok_bind, e]
  · rintro M' ⟨f, hM', hf⟩
    rw [hM'.get (by omega) (by omega), ok_bind, hM'.get (by omega) (by omega), ok_bind, hf]
    simp only [if_true]
    rw [mulC_ub h hn (by omega) le_rfl]
    rfl

/-- one column: all parities are copies -/
theorem vandermonde_ec_one {O : BinExt.Obj} {m : Nat} (mem : Nat → Nat) :
    ∃ M, (Mat.mk' m 1 mem).vandermonde_suitable_for_ec O.gf mem = .ok M ∧ Mat.Is M m 1 (fun _ _ => 1) := by
  unfold Mat.vandermonde_suitable_for_ec
  obtain ⟨T, e, hT⟩ := vandermonde_small (O := O) (R := m + 1) (k := 1) (by omega) mem
  obtain ⟨r, er, hr⟩ := hT.row_is_identity (i := 0) (by omega)
  have : r = true := hr.mpr (fun j hj => by rw [show j = 0 by omega])
  have h1 : forN 1 T (fun i tmp => Mat.ecStep O.gf i tmp) = .ok T := by
    show (Mat.ecStep O.gf 0 T : Res Mat) = _
    unfold Mat.ecStep
    rw [er, this]
    rfl
  have e' : Mat.vandermonde O.gf (Mat.mk' ((Mat.mk' m 1 mem).n_rows + (Mat.mk' m 1 mem).n_cols) (Mat.mk' m 1 mem).n_cols mem) = .ok T := e
  have h1' : forN (Mat.mk' m 1 mem).n_cols T (fun i tmp => Mat.ecStep O.gf i tmp) = .ok T := h1
  rw [e', ok_bind, h1', ok_bind]
  exact (Mat.mk'_is m 1 mem).fillSet (v := fun i j M => T.get (M.n_cols + i) j) _ (fun i j M hi hj hM => by
    rw [hM.cols, hT.get (by omega) hj, if_pos (by omega)])

/-- C48 for `RsGf2n` with Vandermonde matrices: the constructor succeeds for every code with at most as many fragments as the field has elements, and for every
code with one data fragment, however many parities it has; and all these codes recover the data from any `k` fragments. -/
theorem C48_vandermonde_accepts {b w k m : Nat} (hw : w ∈ [1, 2, 4, 8, 16]) (hF : BinSupported b (8 * w)) (hk : 0 < k)
    (hlen : k = 1 ∨ k + m ≤ 2 ^ (8 * w)) (mem : Nat → Nat) (junk : Nat → Nat → Nat) (junk3 : Nat → Nat → Nat → Nat) :
    ∃ E, RsGf2n.mk' b w k m .vandermonde mem junk junk3 = .ok E ∧
      ∀ data T mem', Gf2nData w k data T → Gf2nRecovers E w k m mem' data T (fun _ _ => True) := by
  haveI := fact_of (size_of hF.size)
  have hws : WordSize w := by
    simp only [List.mem_cons, List.not_mem_nil, or_false] at hw
    unfold WordSize
    omega
  have hw16 : w ≤ 16 := by
    simp only [List.mem_cons, List.not_mem_nil, or_false] at hw
    omega
  have key : ∃ (O : BinExt.Obj) (B : BinExt.IsBinField O (8 * w) (BinExt.lowOf (8 * w)) (BinK (8 * w)) (binR (8 * w)))
      (mat : Mat) (f : Nat → Nat → Nat), RsGf2n.mk' b w k m .vandermonde mem junk junk3 = .ok (RsGf2n.fec O.gf w k m mat) ∧ Mat.Is mat m k f ∧
      (∀ i j, i < m → j < k → B.sim.V (f i j)) ∧
      (∀ ids, ValidIds k (k + m) ids → RsGf2n.IdsOk k m .vandermonde ids → IsUnit (Mat.toM B.sim k (Mat.pick k f (gt ids))).det) := by
    by_cases hl : k + m ≤ 2 ^ (8 * w)
    · obtain ⟨O, B, mat, f, e, i1, v1, hu, _⟩ := RsGf2n.mk'_spec hF hw16 hk hl .vandermonde mem junk junk3
      exact ⟨O, B, mat, f, e, i1, v1, hu⟩
    · have h1 : k = 1 := hlen.resolve_right hl
      subst h1
      obtain ⟨O, e, _, B⟩ := exists_binExt hF junk junk3
      obtain ⟨M, eM, hM⟩ := vandermonde_ec_one (O := O) (m := m) mem
      refine ⟨O, B, M, _, ?_, hM, fun _ _ _ _ => B.full.v1.1, ?_⟩
      · unfold RsGf2n.mk' RsGf2n.mkObj
        simp only [cassert, hw16, decide_true, if_true, ok_bind]
        rw [← bind_assoc, e, ok_bind]
        rw [eM]
        rfl
      · intro ids hids _
        rw [Matrix.det_fin_one]
        have : Mat.toM B.sim 1 (Mat.pick 1 (fun _ _ => 1) (gt ids)) 0 0 = 1 := by
          show B.sim.φ (Mat.pick 1 (fun _ _ => 1) (gt ids) 0 0) = 1
          unfold Mat.pick
          by_cases c : gt ids 0 < 1
          · rw [if_pos c, if_pos (by omega), B.full.v1.2]
          · rw [if_neg c, B.full.v1.2]
        rw [this]
        exact isUnit_one
  obtain ⟨O, B, mat, f, e, i1, v1, hu⟩ := key
  refine ⟨_, e, fun data T mem' hd => ?_⟩
  obtain ⟨fr, pr, h1, h2, h3, h4⟩ := Gf2nRec.recovers_of (type := .vandermonde) hws rfl B hk i1 v1 hu mem' hd
  exact ⟨fr, pr, h1, h2, h3, fun datas pars outs props mem'' a1 a2 a3 _ => h4 datas pars outs props mem'' a1 a2 a3 (.inl rfl)⟩

/-- C48 fails for `RsGf2n` with Vandermonde matrices and words of one or two bytes: with more fragments than elements in the field and more than one data
fragment, the constructor reads outside an array. -/
theorem C48_vandermonde_reads_out_of_bounds {b w k m : Nat} (hw : w = 1 ∨ w = 2) (hF : BinSupported b (8 * w)) (hk : 2 ≤ k)
    (hlen : 2 ^ (8 * w) < k + m) (mem : Nat → Nat) (junk : Nat → Nat → Nat) (junk3 : Nat → Nat → Nat → Nat) :
    RsGf2n.mk' b w k m .vandermonde mem junk junk3 = ub := by
  haveI := fact_of (size_of hF.size)
  obtain ⟨O, e, _, _⟩ := exists_binExt hF junk junk3
  have hO : IsBinExt O b (8 * w) := ⟨hF, junk, junk3, e⟩
  have hw16 : w ≤ 16 := by omega
  have h16 : 8 * w ≤ 16 := by omega
  unfold RsGf2n.mk' RsGf2n.mkObj
  simp only [cassert, hw16, decide_true, if_true, ok_bind]
  rw [← bind_assoc, e, ok_bind]
  have : (Mat.mk' m k mem).vandermonde_suitable_for_ec O.gf mem = ub := by
    unfold Mat.vandermonde_suitable_for_ec
    by_cases h3 : 3 ≤ k
    · have e' : Mat.vandermonde O.gf (Mat.mk' ((Mat.mk' m k mem).n_rows + (Mat.mk' m k mem).n_cols) (Mat.mk' m k mem).n_cols mem) = ub :=
        vandermonde_ub hO h16 h3 (by rw [Nat.add_comm] at hlen; exact hlen) mem
      rw [e']
      rfl
    · have h2 : k = 2 := by omega
      subst h2
      obtain ⟨T, eT, hT⟩ := vandermonde_small (O := O) (R := m + 2) (k := 2) (by omega) mem
      have e' : Mat.vandermonde O.gf (Mat.mk' ((Mat.mk' m 2 mem).n_rows + (Mat.mk' m 2 mem).n_cols) (Mat.mk' m 2 mem).n_cols mem) = .ok T := eT
      obtain ⟨r, er, hr⟩ := hT.row_is_identity (i := 0) (by omega)
      have hrt : r = true := hr.mpr (fun j hj => by
        rcases (by omega : j = 0 ∨ j = 1) with rfl | rfl <;> rfl)
      have h1 : forN (Mat.mk' m 2 mem).n_cols T (fun i tmp => Mat.ecStep O.gf i tmp) = ub := by
        show ((Mat.ecStep O.gf 0 T) >>= fun s => Mat.ecStep O.gf 1 s : Res Mat) = _
        have : Mat.ecStep O.gf 0 T = .ok T := by
          unfold Mat.ecStep
          rw [er, hrt]
          rfl
        rw [this, ok_bind]
        exact ecStep_ub hO h16 (by omega) hT
      rw [e', ok_bind, h1]
      rfl
  simp only [this]
  rfl

/-- parameters for the theorems above: 1 data fragment and 300 parities, 200 data fragments and 100 parities, words of one byte -/
example : BinSupported 32 (8 * 1) ∧ ¬ (1 + 300 ≤ 2 ^ (8 * 1)) ∧ 2 ^ (8 * 1) < 200 + 100 := ⟨⟨by decide, by decide, by decide, by decide⟩, by decide, by decide⟩

end Quad.Props
