import Verif.Lemmas.FecNf4Buf
import Verif.Lemmas.Packets
import Verif.Props.FecVert

/-!
# The packed Fermat code on packets: streams and blocks (C32)

`RsNf4Obj.mk'` is the constructor and `RsNf4Obj.fecV` the virtual functions of the object.  What it means that an object codes given data is
`Spec.PacketCode` (Spec/Packets.lean).
-/

namespace Quad.Props
open Quad Quad.Spec

/-- the choice of vectorised functions for the word type `b` -/
theorem nf4Simd_build {b n : Nat} {simd : Option (Nat × (Nat → Nat))} (h : Nf4Build b n simd) :
    ∃ reg hi, Nf4Reg reg ∧ RsNf4Obj.nf4Simd b reg hi = simd := by
  cases simd with
  | none => exact ⟨none, fun _ => 0, .inl rfl, by unfold RsNf4Obj.nf4Simd; split <;> rfl⟩
  | some s =>
    obtain ⟨R, hi⟩ := s
    obtain ⟨rfl, hR⟩ := h.vec R hi rfl
    refine ⟨some R, hi, ?_, rfl⟩
    rcases hR with rfl | rfl
    · exact .inr (.inl rfl)
    · exact .inr (.inr rfl)

/-- C32 on packets.  There is one root of unity `g`, of order at least `n_data + n_parities`, such that all data have fragments and properties
with these properties.

 * Symbol `l` of word `t` of fragment `f`, restored with the flags, is the value at `g ^ f` of the polynomial whose coefficients are symbol `l`
   of word `t` of the data.
 * The object made in any build, for any word type with room for the lanes, any packet size but 0 and any contents of uninitialised memory,
   codes the data into these fragments, and recovers them from any `n_data` of them, on streams and on blocks.
 * The object coding word by word gives the same fragments and properties. -/
theorem C32_packets_partial {k m : Nat} (hk : 0 < k) (hm : 0 < m) (hlen : k + m ≤ 65536) (htwo : 2 * k ≤ 65536) :
    ∃ (n : Nat) (g : ZMod 65537), IsPrimitiveRoot g n ∧ k + m ≤ n ∧
    ∀ {w : Nat}, w = 2 ∨ w = 4 ∨ w = 8 → ∀ {data : Array (List Nat)} {T : Nat}, StreamData w k data T →
    ∃ (frags : Array (List Nat)) (fprops : Array Properties), frags.size = k + m ∧ fprops.size = k + m ∧
      (∀ f, f < k + m → (gt frags f).length = T * w) ∧
      (∀ f t l, f < k + m → t < T → l < w / 2 → (restored16 w (gt frags f) (gt fprops f) t l : ZMod 65537) =
        ∑ i ∈ Finset.range k, (lane16 (word w (gt data i) t) l : ZMod 65537) * (g ^ f) ^ i) ∧
      (∀ {b : Nat} {reg : Option Nat} {hi : Nat → Nat} {pkt : Nat} (mem : Nat → Nat), Nf4Reg reg →
        Nf4Build b (w / 2) (RsNf4Obj.nf4Simd b reg hi) → 0 < pkt →
        ∃ R, RsNf4Obj.mk' b reg hi w k m pkt mem = .ok R ∧ PacketCode (R.fecV b) w k m T data frags fprops) ∧
      (∀ {b : Nat} {simd : Option (Nat × (Nat → Nat))} {pkt : Nat} (mem mem' : Nat → Nat), Nf4Build b (w / 2) simd →
        ∃ c, RsNf4.mkCode b simd w k m pkt mem = .ok c ∧
          (RsNf4.fec c).encode_streams_horizontal data (Array.replicate (k + m) []) (Array.replicate (k + m) .empty) mem' =
            .ok (frags, fprops)) := by
  obtain ⟨n, g, hg, hn, hall⟩ := RsNf4Obj.mk'_spec hk hm hlen
  refine ⟨n, g, hg, hn, fun {w} hw {data T} hd => ?_⟩
  obtain ⟨frags, fprops, hI⟩ := CodeOf.exists w k (k + m) (RsNf4Obj.cstored (w / 2) g) (RsNf4Obj.cmark (w / 2) g) data T
  refine ⟨frags, fprops, hI.fsize, hI.psize, fun f hf => by rw [hI.frag f hf, flat_length], ?_, ?_, ?_⟩
  · intro f t l hf ht hl
    obtain ⟨hp, hv⟩ := RsNf4.sym_packed (w / 2) g (rowAt w k (gt data) t) f
    have hrhs : ∑ i ∈ Finset.range k, (lane16 (word w (gt data i) t) l : ZMod 65537) * (g ^ f) ^ i =
        (lane32 (RsNf4.sym (w / 2) g (rowAt w k (gt data) t) f) l : ZMod 65537) := by
      rw [hv l hl]
      unfold RsNf4.lanePoly
      rw [Polynomial.eval_finset_sum, show (rowAt w k (gt data) t).size = k by simp [rowAt]]
      refine Finset.sum_congr rfl (fun i hi => ?_)
      rw [rowAt_gt (Finset.mem_range.mp hi), wordAt_word]
      simp
    rw [hrhs]
    congr 1
    unfold restored16
    set s := RsNf4.sym (w / 2) g (rowAt w k (gt data) t) f with hs
    have hbit := IsNf4.flagOf_bit (a := s) hl
    have hiff : (∃ flag, (t, flag) ∈ (gt fprops f).props ∧ flag.testBit l = true) ↔ lane32 s l = 65536 := by
      rw [hI.prop f hf]
      simp only [mem_marksOf]
      constructor
      · rintro ⟨flag, ⟨_, h⟩, h2⟩
        unfold RsNf4Obj.cmark at h
        split at h
        · rw [← hs] at h
          rw [← Option.some.inj h, hbit] at h2
          simpa using h2
        · cases h
      · intro h
        rw [h] at hbit
        refine ⟨IsNf4.flagOf (w / 2) s, ⟨ht, ?_⟩, by rw [hbit]; simp⟩
        unfold RsNf4Obj.cmark
        rw [← hs, if_pos]
        by_contra h0
        rw [show IsNf4.flagOf (w / 2) s = 0 by omega] at hbit
        simp at hbit
    have hlt : ∀ l, l < w / 2 → (if lane32 s l = 65536 then 0 else lane32 s l) < 2 ^ 16 := by
      intro l hl
      have := hp.lane l hl
      split <;> omega
    by_cases h : lane32 s l = 65536
    · rw [if_pos (hiff.mpr h), h]
    · rw [if_neg (fun hh => h (hiff.mp hh)), hI.frag f hf, ← wordAt_word, wordAt_flat ht]
      · unfold RsNf4Obj.cstored
        rw [← hs]
        unfold lane16
        rw [NF4.word_lane hlt hl, if_neg h]
      · unfold RsNf4Obj.cstored
        rw [← hs]
        refine lt_of_lt_of_le (NF4.word_lt hlt) ?_
        rw [← two_pow_8]
        exact Nat.pow_le_pow_right (by norm_num) (by omega)
  · intro b reg hi pkt mem hreg hB hpkt
    obtain ⟨R, e, _, e1, e2, S, n', l2, g2, o1, o2, o3, G⟩ := hall (pkt := pkt) (hi := hi) hreg ⟨hw, hB, hk, hm, hlen, htwo⟩ mem
    have hV := RsNf4Obj.vspec (b := b) G
    rw [RsNf4Obj.stored_eq G.good.H, RsNf4Obj.markOf_eq G.good.H] at hV
    exact ⟨R, e, PacketCode.of hV (by show 0 < R.code.base.pkt_size; omega) G.good.sys e1 G.good.n_data G.good.n_outputs hd hI⟩
  · intro b simd pkt mem mem' hB
    obtain ⟨reg, hi, hreg, hsimd⟩ := nf4Simd_build hB
    subst hsimd
    obtain ⟨R, _, e, e1, e2, S, n', l2, g2, o1, o2, o3, G⟩ := hall (pkt := pkt) (hi := hi) hreg ⟨hw, hB, hk, hm, hlen, htwo⟩ mem
    have hH := RsNf4.hspec G.good
    rw [show (⟨R.code.base, R.N⟩ : RsNf4.Code).N = R.N from rfl, RsNf4Obj.stored_eq G.good.H, RsNf4Obj.markOf_eq G.good.H] at hH
    have hkb : (RsNf4.fec ⟨R.code.base, R.N⟩).base.n_data = k := G.good.n_data
    have hwb : (RsNf4.fec ⟨R.code.base, R.N⟩).base.word_size = w := e1
    have hob : (RsNf4.fec ⟨R.code.base, R.N⟩).base.n_outputs = k + m := G.good.n_outputs
    obtain ⟨o, pp, e, s1, s2, s3⟩ := Fec.encode_streams_horizontal_spec hH (data := data) (outs := Array.replicate (k + m) [])
      (props := Array.replicate (k + m) .empty) mem' (T := T) (by rw [hkb]; exact hd.size) (by simp [hob]) (by simp [hob])
      (by rw [hkb]; exact hd.bytes)
      (by
        rw [hwb, hkb]
        exact ⟨fun i hi => (hd.len i hi).ge, 0, hk, by rw [hd.len 0 hk, Nat.succ_mul]; omega⟩)
    rw [hob, hkb, hwb] at s3
    refine ⟨_, by assumption, ?_⟩
    rw [e]
    congr 2
    · refine gt_ext (by rw [s1, hI.fsize, hob]) (fun i hi => ?_)
      rw [s1, hob] at hi
      rw [(s3 i hi).1, gt_replicate hi, List.nil_append, hI.frag i hi]
    · refine gt_ext (by rw [s2, hI.psize, hob]) (fun i hi => ?_)
      rw [s2, hob] at hi
      rw [(s3 i hi).2, hI.prop i hi]

/-- the constructor accepts every word size from 2 to 8 -/
theorem C32_constructor {b w k m pkt : Nat} {simd : Option (Nat × (Nat → Nat))} (hw : 2 ≤ w) (hw8 : w ≤ 8) (hB : Nf4Build b (w / 2) simd)
    (hk : 0 < k) (hm : 0 < m) (hlen : k + m ≤ 65536) (htwo : 2 * k ≤ 65536) (mem : Nat → Nat) :
    ∃ c, RsNf4.mkCode b simd w k m pkt mem = .ok c ∧ c.base.word_size = w ∧ c.base.n_data = k ∧ c.base.n_outputs = k + m := by
  obtain ⟨N, eN, H⟩ := Props.C15_constructor hB
  obtain ⟨O, hO, hON, _⟩ := H.init_spec
  obtain ⟨L, eL, hL, hL', _⟩ := H.sub_field.codeLen (e := 16) (by norm_num) (m := m + k) (by omega) (by norm_num; omega)
  obtain ⟨L2, eL2, hL2, hL2'⟩ := H.codeLen hO (m := 2 * k) (by omega) (by norm_num; omega)
  obtain ⟨r, g, er, hg, hr⟩ := H.nthRoot hO hL
  obtain ⟨r2, g2, er2, hg2, hr2⟩ := H.nthRoot hO hL2
  obtain ⟨d, ed, hd1, hd2⟩ := Arith.ceil2_spec (b := 32) (n := k) hk (by norm_num; omega)
  obtain ⟨R, eR, hR⟩ := H.ftSpec hO (pkt := pkt) hL (by positivity) (hd2 L (by omega)) er hg hr
  obtain ⟨R2, eR2, hR2⟩ := H.ftSpec hO (pkt := pkt) (dl := 2 ^ L2) hL2 (by positivity) le_rfl er2 hg2 hr2
  obtain ⟨ir, eir, _⟩ := (H.sim hO ⟨0, hB.pos⟩).inv (a := r) (hr _).1 trivial
  obtain ⟨P1, eP1⟩ := RsNf4.powers_ok O.gf ir (k + 1) mem
  obtain ⟨P2, eP2⟩ := RsNf4.powers_ok O.gf r (2 ^ L) mem
  refine ⟨⟨{ sys := false, word_size := w, n_data := k, n_parities := m, code_len := k + m, n_outputs := k + m,
             pkt_size := pkt, n := 2 ^ L, r := r, F := O.gf, fft := R.ft pkt, fft_2k := R2.ft pkt,
             inv_r_powers := P1, r_powers := P2 }, N⟩, ?_, rfl, rfl, rfl⟩
  · unfold RsNf4.mkCode
    simp only [cassert, ge_iff_le, hw, hw8, decide_true, if_true, ok_bind]
    rw [eN, ok_bind, hO, ok_bind, eL, ok_bind, er, ok_bind, ed, ok_bind, eR, ok_bind, eL2, ok_bind, eR2, ok_bind, eir, ok_bind,
      eP1, ok_bind, eP2, ok_bind]
    rfl

/-- a loop whose first turn fails -/
theorem forN_first {α : Type} {n : Nat} (hn : 0 < n) {s : α} {f : Nat → α → Res α} {e : Err} (h : f 0 s = .error e) :
    forN n s f = .error e := by
  induction n with
  | zero => omega
  | succ n ih =>
    unfold forN
    rcases Nat.eq_zero_or_pos n with rfl | hn'
    · exact h
    · rw [ih hn']; rfl

/-- C32 fails for the other word sizes the constructor accepts, 3, 5, 6 and 7 bytes: every call coding word by word ends in a failed
assertion, and the functions on packets copy nothing (`C35_other_word_sizes_ignored`). -/
theorem C32_other_word_sizes {b w k m pkt : Nat} {simd : Option (Nat × (Nat → Nat))} (hw : w = 3 ∨ w = 5 ∨ w = 6 ∨ w = 7)
    (hB : Nf4Build b (w / 2) simd) (hk : 0 < k) (hm : 0 < m) (hlen : k + m ≤ 65536) (htwo : 2 * k ≤ 65536) (mem : Nat → Nat) :
    ∃ c, RsNf4.mkCode b simd w k m pkt mem = .ok c ∧ ∀ (data outs : Array (List Nat)) (props : Array Properties) (mem' : Nat → Nat),
      (RsNf4.fec c).encode_streams_horizontal data outs props mem' = .error .assertFail := by
  obtain ⟨c, e, h1, h2, h3⟩ := C32_constructor (pkt := pkt) (by omega) (by omega) hB hk hm hlen htwo mem
  refine ⟨c, e, fun data outs props mem' => ?_⟩
  unfold Fec.encode_streams_horizontal
  have hb : (RsNf4.fec c).base = c.base := rfl
  rw [hb, h2, h3]
  by_cases hd : data.size = k
  swap
  · simp only [cassert, hd, decide_false]; rfl
  by_cases ho : outs.size = k + m
  swap
  · simp only [cassert, hd, ho, decide_true, decide_false, if_true, ok_bind]; rfl
  by_cases hp : props.size = k + m
  swap
  · simp only [cassert, hd, ho, hp, decide_true, decide_false, if_true, ok_bind]; rfl
  simp only [cassert, hd, ho, hp, decide_true, if_true, ok_bind]
  unfold Fec.encLoop
  have hrow : ∀ ws, readRow w k 0 (fun i => .ok i) (data.map some) ws = .error .assertFail := by
    intro ws
    unfold readRow
    apply forN_first hk
    simp only [Bool.true_eq_false, if_false, ok_bind]
    rw [rd_gt (by simp; omega), ok_bind, gt_map (by omega)]
    unfold readw
    simp only [cassert, decide_eq_false (show ¬ (w = 1 ∨ w = 2 ∨ w = 4 ∨ w = 8 ∨ w = 16) by omega)]
    rfl
  simp only [hb, h1, h2, hrow]
  rfl

/-- a word size of 6 with three lanes of a `__uint128_t` -/
example : Nf4Build 128 (6 / 2) (some (16, fun _ => 0)) :=
  ⟨by norm_num, by norm_num, by norm_num, fun _ _ h => by cases h; exact ⟨rfl, .inl rfl⟩⟩

/-- a vectorised build with two lanes, and data of two words in three streams -/
example : Nf4Reg (some 32) ∧ Nf4Build 128 (4 / 2) (RsNf4Obj.nf4Simd 128 (some 32) (fun _ => 255)) ∧ Nf4Build 64 (4 / 2) (RsNf4Obj.nf4Simd 64 (some 16) (fun _ => 0)) ∧
    StreamData 4 3 #[[0, 1, 2, 3, 4, 5, 6, 7], [255, 255, 255, 255, 0, 0, 0, 0], [9, 8, 7, 6, 5, 4, 3, 2]] 2 := by
  refine ⟨.inr (.inr rfl), ⟨by norm_num, by norm_num, by norm_num, ?_⟩, ⟨by norm_num, by norm_num, by norm_num, ?_⟩, rfl, ?_, ?_⟩
  · intro R hi h
    simp [RsNf4Obj.nf4Simd] at h
    simp [h.1]
  · intro R hi h
    simp [RsNf4Obj.nf4Simd] at h
  · decide
  · decide

end Quad.Props
