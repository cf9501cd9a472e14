import Verif.Lemmas.FecNf4BufAny
import Verif.Props.FecNf4
import Verif.Props.FecNf4Vert

/-!
# Fragments and properties with any contents, packed Fermat code (C61, C62)

A word of this code holds several symbols, and the mark of a word says which of them are 65536.  The theorems say what decoding word by word makes of fragments and
properties of any contents.  The vocabulary is in Spec/AnyLanes.lean.
-/

namespace Quad.Props
open Quad Quad.Spec Polynomial

/-- C61: decoding `n_data` or more fragments, whatever they and the properties contain, succeeds and writes, for every symbol of a word, the coefficients of
the polynomial through the symbols of the first `n_data` available fragments; in a scalar and in a vectorised build, also for marks with bits beyond the symbols
of a word. -/
theorem C61_words {b w k m pkt : Nat} {simd : Option (Nat × (Nat → Nat))} (h : Nf4Params b simd w k m) (mem : Nat → Nat) :
    ∃ (c : RsNf4.Code) (n : Nat) (g : ZMod 65537), RsNf4.mkCode b simd w k m pkt mem = .ok c ∧
      k + m ≤ n ∧ IsPrimitiveRoot g n ∧ EncodesLanes (RsNf4.fec c) g w k (k + m) ∧
      ∀ {T : Nat} {datas pars outs : Array (Option (List Nat))} {props : Array Properties} (mem' : Nat → Nat),
        AnyWords false w k (k + m) T datas pars → props.size = k + m → outs.size = k →
        DecodesLanes (RsNf4.fec c) g w k T datas pars outs props mem' := by
  obtain ⟨c, e, hw, S, n, l2, g, g2, okLen, G⟩ := RsNf4.mkCode_spec (pkt := pkt) h mem
  have hE := RsNf4.encodesLanes G
  rw [hw] at hE
  refine ⟨c, n, g, e, G.le, (G.env.fft ⟨0, G.H.build.pos⟩).root, hE, fun {T datas pars outs props} mem' h1 h2 h3 => ?_⟩
  have := RsNf4.decodesLanes G (T := T) (datas := datas) (pars := pars) (outs := outs) (props := props) mem' (by rw [hw]; exact h1) h2 h3
  rwa [hw] at this

/-- C61: where the fragments that are decoded have the symbols `l` of an encoding of `data`, the symbols `l` of `data` come back; whatever the fragments and
the properties hold elsewhere, and whatever the other symbols of the same words are. -/
theorem C61_recover {Γ : Type} {E : Fec Γ} {g : ZMod 65537} {w k n T T' : Nat}
    (hE : EncodesLanes E g w k n) {datas pars outs : Array (Option (List Nat))} {props : Array Properties} {mem : Nat → Nat}
    (hn : pars.size = n) (h : DecodesLanes E g w k T datas pars outs props mem) {data : Array (List Nat)} (hd : Gf2nData w k data T')
    (mem' : Nat → Nat) :
    ∃ frags fprops res o, E.encode_streams_horizontal data (Array.replicate n []) (Array.replicate n .empty) mem' = .ok (frags, fprops) ∧
      E.decode_streams_horizontal datas pars props outs mem = .ok (true, res) ∧ (∀ i, i < k → gt res i = (gt outs i).map (fun s => s ++ gt o i)) ∧
      ∀ t l, t < T → t < T' → l < w / 2 →
        (∀ j ∈ picked k pars, laneAt w ((gt pars j).getD []) (gt props j) t l = laneAt w (gt frags j) (gt fprops j) t l) →
        ∀ i, i < k → lane16 (word w (gt o i) t) l = lane16 (word w (gt data i) t) l := by
  obtain ⟨frags, fprops, e1, _, _, _, hs⟩ := hE data T' mem' hd
  obtain ⟨res, o, e2, _, _, _, h5, h6⟩ := h
  refine ⟨frags, fprops, res, o, e1, e2, h5, fun t l ht ht' hl hag i hi => ?_⟩
  obtain ⟨P, P1, P2, P3⟩ := hs t l ht' hl
  obtain ⟨Q, _, _, Q3, Q4⟩ := h6 t l ht hl
  have hPQ : P = Q := Q3 P P1 fun j hj => by
    have hj' : j < pars.size := List.mem_range.mp (List.mem_filter.mp (List.mem_of_mem_take hj)).1
    rw [P3 j (by omega), hag j hj]
  have hlt : lane16 (word w (gt data i) t) l < 65536 := Nat.mod_lt _ (by norm_num)
  rw [Q4 i hi, ← hPQ, P2 i hi, ZMod.val_natCast_of_lt (by omega), Nat.mod_eq_of_lt hlt]

/-- C61: a decoded symbol depends only on the symbols at its place in the first `n_data` available fragments. -/
theorem C61_local {Γ Γ' : Type} {E : Fec Γ} {E' : Fec Γ'} {g : ZMod 65537} {w k T T' : Nat}
    {datas pars outs datas' pars' outs' : Array (Option (List Nat))} {props props' : Array Properties} {mem mem' : Nat → Nat}
    (h : DecodesLanes E g w k T datas pars outs props mem) (h' : DecodesLanes E' g w k T' datas' pars' outs' props' mem')
    (hp : picked k pars = picked k pars') :
    ∃ res o res' o', E.decode_streams_horizontal datas pars props outs mem = .ok (true, res) ∧
      E'.decode_streams_horizontal datas' pars' props' outs' mem' = .ok (true, res') ∧
      (∀ i, i < k → gt res i = (gt outs i).map (fun s => s ++ gt o i) ∧ gt res' i = (gt outs' i).map (fun s => s ++ gt o' i)) ∧
      ∀ t l, t < T → t < T' → l < w / 2 →
        (∀ j ∈ picked k pars, laneAt w ((gt pars j).getD []) (gt props j) t l = laneAt w ((gt pars' j).getD []) (gt props' j) t l) →
        ∀ i, i < k → lane16 (word w (gt o i) t) l = lane16 (word w (gt o' i) t) l := by
  obtain ⟨res, o, e, _, _, _, h5, h6⟩ := h
  obtain ⟨res', o', e', _, _, _, h5', h6'⟩ := h'
  refine ⟨res, o, res', o', e, e', fun i hi => ⟨h5 i hi, h5' i hi⟩, fun t l ht ht' hl hag i hi => ?_⟩
  obtain ⟨P, P1, P2, _, P4⟩ := h6 t l ht hl
  obtain ⟨Q, _, _, Q3, Q4⟩ := h6' t l ht' hl
  rw [P4 i hi, Q4 i hi, Q3 P P1 fun j hj => by rw [P2 j (hp ▸ hj), hag j (hp ▸ hj)]]

/-- C62.  There is one root of unity `g`, of order at least `n_data + n_parities`, such that the object made in any build, for any word type with room for the lanes
and any packet size but 0, decodes fragments of any contents with any properties, on streams and on blocks, to the coefficients of the polynomials through the symbols of the first
`n_data` available fragments; its own fragments and properties are those of the object that codes word by word, whose symbols are the values of the polynomials made of the data.  Marks may have bits beyond the symbols of a word. -/
theorem C62_packets {k m : Nat} (hk : 0 < k) (hm : 0 < m) (hlen : k + m ≤ 65536) (htwo : 2 * k ≤ 65536) :
    ∃ (n : Nat) (g : ZMod 65537), IsPrimitiveRoot g n ∧ k + m ≤ n ∧
    ∀ {w b pkt : Nat} {reg : Option Nat} {hi : Nat → Nat} (mem : Nat → Nat), w = 2 ∨ w = 4 ∨ w = 8 → Nf4Reg reg →
      Nf4Build b (w / 2) (RsNf4Obj.nf4Simd b reg hi) → 0 < pkt →
      ∃ R c, RsNf4Obj.mk' b reg hi w k m pkt mem = .ok R ∧ RsNf4.mkCode b (RsNf4Obj.nf4Simd b reg hi) w k m pkt mem = .ok c ∧
        DecodesPackets (R.fecV b) g w k m ∧ EncodesLanes (RsNf4.fec c) g w k (k + m) ∧
        ∀ {data : Array (List Nat)} {T : Nat} (mem' : Nat → Nat), StreamData w k data T → ∃ frags fprops,
          (RsNf4.fec c).encode_streams_horizontal data (Array.replicate (k + m) []) (Array.replicate (k + m) .empty) mem' = .ok (frags, fprops) ∧
          PacketCode (R.fecV b) w k m T data frags fprops := by
  obtain ⟨n, g, hg, hn, hall⟩ := RsNf4Obj.mk'_spec hk hm hlen
  refine ⟨n, g, hg, hn, fun {w b pkt reg hi} mem hw hreg hB hpkt => ?_⟩
  obtain ⟨R, e, e', e1, e2, S, n', l2, g2, o1, o2, o3, G⟩ := hall (pkt := pkt) (hi := hi) hreg ⟨hw, hB, hk, hm, hlen, htwo⟩ mem
  have hV := RsNf4Obj.vspec (b := b) G
  rw [RsNf4Obj.stored_eq G.good.H, RsNf4Obj.markOf_eq G.good.H] at hV
  have hD := RsNf4Obj.decodesPackets G (by omega)
  have hE := RsNf4.encodesLanes G.good
  rw [show (⟨R.code.base, R.N⟩ : RsNf4.Code).base.word_size = w from e1] at hE
  rw [e1] at hD
  refine ⟨R, _, e, e', hD, hE, fun {data T} mem' hd => ?_⟩
  obtain ⟨frags, fprops, hI⟩ := CodeOf.exists w k (k + m) (RsNf4Obj.cstored (w / 2) g) (RsNf4Obj.cmark (w / 2) g) data T
  refine ⟨frags, fprops, ?_, PacketCode.of hV (by show 0 < R.code.base.pkt_size; omega) G.good.sys e1 G.good.n_data G.good.n_outputs hd hI⟩
  have hH := RsNf4.hspec G.good
  rw [show (⟨R.code.base, R.N⟩ : RsNf4.Code).N = R.N from rfl, RsNf4Obj.stored_eq G.good.H, RsNf4Obj.markOf_eq G.good.H] at hH
  have hkb : (RsNf4.fec ⟨R.code.base, R.N⟩).base.n_data = k := G.good.n_data
  have hwb : (RsNf4.fec ⟨R.code.base, R.N⟩).base.word_size = w := e1
  have hob : (RsNf4.fec ⟨R.code.base, R.N⟩).base.n_outputs = k + m := G.good.n_outputs
  obtain ⟨o, pp, e, s1, s2, s3⟩ := Fec.encode_streams_horizontal_spec hH (data := data) (outs := Array.replicate (k + m) [])
    (props := Array.replicate (k + m) .empty) mem' (T := T) (by rw [hkb]; exact hd.size) (by simp [hob]) (by simp [hob])
    (by rw [hkb]; exact hd.bytes)
    (by
      rw [hwb, hkb]
      exact ⟨fun i hi => (hd.len i hi).ge, 0, hk, by rw [hd.len 0 hk, Nat.succ_mul]; omega⟩)
  rw [hob, hkb, hwb] at s3
  rw [e]
  congr 2
  · refine gt_ext (by rw [s1, hI.fsize, hob]) (fun i hi => ?_)
    rw [s1, hob] at hi
    rw [(s3 i hi).1, gt_replicate hi, List.nil_append, hI.frag i hi]
  · refine gt_ext (by rw [s2, hI.psize, hob]) (fun i hi => ?_)
    rw [s2, hob] at hi
    rw [(s3 i hi).2, hI.prop i hi]

/-- C62: where the fragments that are decoded have the symbols `l` of an encoding of `data`, the symbols `l` of `data` come back. -/
theorem C62_recover {Γ : Type} {E : Fec Γ} {g : ZMod 65537} {w k n T T' : Nat} (hE : EncodesLanes E g w k n) {fr : Array (Option (List Nat))}
    {props : Array Properties} {r : Nat → List Nat} (hn : fr.size = n) (h : LanesDecoded g w k T fr props r) {data : Array (List Nat)} (hd : Gf2nData w k data T')
    (mem' : Nat → Nat) :
    ∃ frags fprops, E.encode_streams_horizontal data (Array.replicate n []) (Array.replicate n .empty) mem' = .ok (frags, fprops) ∧
      ∀ t l, t < T → t < T' → l < w / 2 →
        (∀ j ∈ picked k fr, laneAt w ((gt fr j).getD []) (gt props j) t l = laneAt w (gt frags j) (gt fprops j) t l) →
        ∀ i, i < k → lane16 (word w (r i) t) l = lane16 (word w (gt data i) t) l := by
  obtain ⟨frags, fprops, e1, _, _, _, hs⟩ := hE data T' mem' hd
  refine ⟨frags, fprops, e1, fun t l ht ht' hl hag i hi => ?_⟩
  obtain ⟨P, P1, P2, P3⟩ := hs t l ht' hl
  obtain ⟨Q, _, _, Q3, Q4⟩ := h t l ht hl
  have hPQ : P = Q := Q3 P P1 fun j hj => by
    have hj' : j < fr.size := List.mem_range.mp (List.mem_filter.mp (List.mem_of_mem_take hj)).1
    rw [P3 j (by omega), hag j hj]
  have hlt : lane16 (word w (gt data i) t) l < 65536 := Nat.mod_lt _ (by norm_num)
  rw [Q4 i hi, ← hPQ, P2 i hi, ZMod.val_natCast_of_lt (by omega), Nat.mod_eq_of_lt hlt]

/-- what `laneAt` is: a mark with bit 1 set makes symbol 1 equal to 65536; a location listed twice hides the marks after it, and of two marks of one location the
smaller one counts -/
example : laneAt 4 [1, 2, 3, 4, 5, 6, 7, 8] ⟨[(1, 2)]⟩ 1 0 = 0x605 ∧ laneAt 4 [1, 2, 3, 4, 5, 6, 7, 8] ⟨[(1, 2)]⟩ 1 1 = 65536 ∧
    laneAt 4 [1, 2, 3, 4, 5, 6, 7, 8] ⟨[(1, 2), (0, 1), (0, 3)]⟩ 1 1 = 0x807 ∧
    laneAt 4 [1, 2, 3, 4, 5, 6, 7, 8] ⟨[(1, 2), (0, 3), (0, 1)]⟩ 0 1 = 0x403 := by decide

/-- bits of a mark beyond the symbols of a word do not change them -/
example : laneAt 4 [1, 2, 3, 4] ⟨[(0, 4)]⟩ 0 0 = 0x201 ∧ laneAt 4 [1, 2, 3, 4] ⟨[(0, 254)]⟩ 0 0 = 0x201 ∧ laneAt 4 [1, 2, 3, 4] ⟨[(0, 254)]⟩ 0 1 = 65536 := by decide

/-- the hypotheses are met -/
example : Nf4Params 64 none 4 3 2 ∧ Nf4Params 128 (some (32, fun _ => 255)) 2 3 2 ∧
    AnyWords false 4 3 5 1 #[] #[some [0, 255, 7, 9], none, some [0, 1, 2, 3, 4], some [7, 8, 9, 10, 1, 1, 1, 1], none] := by
  refine ⟨⟨by norm_num, build64, by norm_num, by norm_num, by norm_num, by norm_num⟩,
    ⟨by norm_num, ⟨by norm_num, by norm_num, by norm_num, by simp⟩, by norm_num, by norm_num, by norm_num, by norm_num⟩,
    ⟨by decide, rfl, by decide, by decide, by decide, 0, by decide, by decide⟩⟩

end Quad.Props
