import Verif.Lemmas.FecFftAdd
import Verif.Props.FftAdd

/-!
# The code on the additive transform as its constructor builds it
-/

namespace Quad
open Finset Polynomial Spec

namespace RsGf2nFftAdd

theorem mkCode_spec {b w k m : Nat} (h : Gf2nFftAddParams b w k m) (mem : Nat → Nat) (junk : Nat → Nat → Nat)
    (junk3 : Nat → Nat → Nat → Nat) :
    ∃ (K : Type) (_ : Field K) (c : Code) (S : c.base.F.Sim K) (n : Nat) (pt : Nat → K), mkCode b w k m mem junk junk3 = .ok c ∧
      Good c S w k m n pt ∧ (2 * k < 2 ^ (8 * w) → ∃ l, c.base.F.codeLenHC (2 * k) = .ok l) ∧
      (2 ^ (8 * w) ≤ 2 * k → c.base.F.codeLenHC (2 * k) = .error .assertFail) := by
  haveI := fact_of (size_of h.field.size)
  obtain ⟨O, e, _, _⟩ := exists_binExt h.field junk junk3
  have hO : IsBinExt O b (8 * w) := ⟨h.field, junk, junk3, e⟩
  set BF := hO.isBinField.2 with hBF
  haveI := BF.good.H.char
  have hF : BF.sim.Full := BF.full
  have hk := h.hk
  have hm := h.hm
  have hlen := h.len
  have hint := h.int
  have hw16 : w ≤ 16 := by have := h.hw; simp at this; omega
  have hw1 : 1 ≤ w := by have := h.hw; simp at this; omega
  have hws : WordSize w := by have := h.hw; simp at this; exact this
  have hw4 : w ≤ 2 ∨ 4 ≤ w := by have := h.hw; simp at this; omega
  obtain ⟨d, hd⟩ := h.field.bytes
  have hroom := h.field.room
  have hspare := h.field.spare
  have hb8 : 8 ≤ b := by omega
  have hsum : k + m < 2 ^ (b - 1) := by
    by_cases hw2 : w ≤ 2
    · calc k + m ≤ 2 ^ (8 * w) := hlen
        _ < 2 ^ (b - 1) := Nat.pow_lt_pow_right (by omega) (by omega)
    · calc k + m ≤ 2 ^ 30 := hint
        _ < 2 ^ (b - 1) := Nat.pow_lt_pow_right (by omega) (by omega)
  obtain ⟨e2, ec, hle, hmin⟩ := Arith.ceil2_spec (b := b) (n := k + m) (by omega) hsum
  have he8 : e2 ≤ 8 * w := (Nat.pow_le_pow_iff_right (by omega : 1 < 2)).1 (hmin _ hlen)
  have heb : e2 < b := by
    by_cases hw2 : w ≤ 2
    · omega
    · have := (Nat.pow_le_pow_iff_right (by omega : 1 < 2)).1 (hmin _ hint)
      omega
  have he1 : 1 ≤ e2 := by
    by_contra hc
    have : e2 = 0 := by omega
    subst this
    norm_num at hle
    omega
  have hlog : Arith.log2 ((2 ^ e2 : Nat) : Int) = .ok e2 := by
    rw [Arith.log2_eq (by positivity), Nat.log_pow (by omega)]
  obtain ⟨hvec, hind, Ls, eL, nL, hB, hft⟩ := Props.C21_default_basis hO he1 he8 heb mem
  have hs : (powerBasis O.gf O.root e2).size = e2 := by simp [powerBasis]
  set basis := powerBasis O.gf O.root e2 with hbasis
  have hq : 2 ^ (8 * w) = 256 ^ w := two_pow_8 w
  have hsp := fun i => Additive.spanPoint_sem (S := BF.sim) (basis := basis) (fun _ _ => rfl) (fun j hj => hvec.2 j (by omega)) i
  refine ⟨_, _, { base := { sys := false, word_size := w, n_data := k, n_parities := m, code_len := k + m, n_outputs := k + m,
                            pkt_size := 8, n := 2 ^ e2, r := 0, F := O.gf, fft := Additive.ft O.gf b Ls mem,
                            fft_2k := Additive.ft O.gf b Ls mem, inv_r_powers := #[], r_powers := #[] },
                  betas := Array.ofFn (n := 2 ^ e2) fun i => spanPoint basis i }, BF.sim, 2 ^ e2, fun i => BF.sim.φ (spanPoint basis i),
    ?_, ?_, ?_, ?_⟩
  · unfold mkCode cassert
    simp only [hw16, decide_true, if_true, ok_bind]
    rw [← bind_assoc, e, ok_bind]
    rw [ec, ok_bind, hlog, ok_bind, eL, ok_bind, hB _ (by simp), ok_bind]
    rfl
  · refine ⟨inferInstanceAs (BinExt.Obj.gf _).Plain, hF, BF.char', BF.oneWord', fun a => CharTwo.neg_eq a, ?_, rfl, hws, rfl, rfl, rfl, rfl, rfl, rfl, hk, by omega, hle,
      by simp, ?_, ?_, ?_⟩
    · intro a
      rw [← hq]
      exact Iff.rfl
    · intro i hi
      simp only
      rw [gt_ofFn hi]
      exact ⟨(hsp i).1, rfl⟩
    · intro i j hi hj he
      exact Props.C21_points_differ hind (by rw [hs]; exact hi) (by rw [hs]; exact hj) (hF.inj (hsp i).1 (hsp j).1 he)
    · intro out input ho hi hV
      refine ⟨_, (hft out out input ho ho ⟨hi, fun j _ => hV j⟩).1, by simp [spanEvals, hs], fun i hi' => ?_⟩
      unfold spanEvals
      rw [gt_ofFn (by rw [hs]; exact hi')]
      exact Additive.evalAt_sem hV (hsp i).1
  · intro h2
    obtain ⟨r, er, _⟩ := binCodeLens hO (A := (2 ^ (8 * w) - 1).primeFactorsList) (C := []) (m := 2 * k) (by simp) (by omega) (by
      rw [Nat.prod_primeFactorsList (by omega)]; omega)
    exact ⟨r, er⟩
  · intro h2
    show O.get_code_len_high_compo (2 * k) = _
    unfold BinExt.Obj.get_code_len_high_compo
    rw [BF.good.cardM1_eq]
    have hpos : 0 < 2 ^ (8 * w) := by positivity
    have : ¬ 2 * k ≤ 2 ^ (8 * w) - 1 := by omega
    simp only [cassert, this, decide_false]
    rfl

/-- if the length of the second transform cannot be computed, decoding fails -/
theorem decode_fails {K : Type} [Field K] {c : Code} {S : c.base.F.Sim K} {w k m n : Nat} {pt : Nat → K} (G : Good c S w k m n pt)
    (hlen : c.base.F.codeLenHC (2 * k) = .error .assertFail) {datas pars outs : Array (Option (List Nat))} {props : Array Properties}
    (mem : Nat → Nat) (h2 : pars.size = k + m) (h3 : props.size = k + m) (h4 : outs.size = k) (hav : k ≤ nAvail pars) :
    (fec c).decode_streams_horizontal datas pars props outs mem = .error .assertFail := by
  have hk := G.kpos
  have hle := G.le
  have hs : (fec c).base.sys = false := G.sys
  have hn : (fec c).base.n_outputs = k + m := G.n_outputs
  have hkd : (fec c).base.n_data = k := G.n_data
  have hsel := (fec c).base.selectFragments_spec (by rw [hkd]; exact hk) (data := datas.map Option.isSome)
    (parities := pars.map Option.isSome) mem (fun h => by rw [hs] at h; cases h) (by rw [hn]; simp [h2])
  have hdl : (fec c).base.dataList (datas.map Option.isSome) = [] := by
    unfold FecBase.dataList
    rw [if_neg (by rw [hs]; simp)]
  have hpl : (present (pars.map Option.isSome) (k + m)).length = nAvail pars := present_eq_avail pars (by omega)
  rw [hdl, hn, hkd, hpl, if_neg (by simp; omega), if_neg (by simp; omega)] at hsel
  unfold FecBase.parList at hsel
  rw [hdl, hn, hkd] at hsel
  simp only [hs, Bool.false_eq_true, if_false, List.nil_append, List.length_nil, Nat.sub_zero, List.map_id'] at hsel
  unfold Fec.decode_streams_horizontal
  simp only [hs, Bool.false_eq_true, if_false, hn, hkd, h2, h3, h4, cassert, decide_true, if_true]
  simp only [ok_bind]
  rw [hsel, ok_bind]
  simp only
  have hids : ValidIds k n (List.take k (present (pars.map Option.isSome) (k + m))).toArray := by
    have hl : (List.take k (present (pars.map Option.isSome) (k + m))).length = k := by rw [List.length_take, hpl]; omega
    have hnd : (List.take k (present (pars.map Option.isSome) (k + m))).Nodup := (present_nodup _ _).sublist (List.take_sublist _ _)
    refine ⟨by simp only [List.size_toArray]; exact hl, ?_, ?_⟩
    · intro i j hi hj he
      rw [Fec.gt_toArray, Fec.gt_toArray] at he
      exact Fec.getD_ne_of_nodup hnd (by omega) (by omega) he
    · intro i hi
      rw [Fec.gt_toArray, List.getD_eq_getElem _ _ (by omega)]
      have := mem_present.mp (List.mem_of_mem_take (List.getElem_mem (l := List.take k (present (pars.map Option.isSome) (k + m))) (n := i) (by omega)))
      omega
  obtain ⟨vx, z, ev, _⟩ := points_spec G hids (vx := fresh mem k) (by simp)
  have hinit : (fec c).init_context_dec (List.take k (present (pars.map Option.isSome) (k + m))).toArray props mem = .error .assertFail := by
    show init_context_dec c _ props mem = _
    unfold init_context_dec Ctx.mk'
    rw [G.n_data, G.hn, ev, ok_bind]
    simp only
    rw [hlen]
    rfl
  rw [hinit]
  rfl

end RsGf2nFftAdd
end Quad
