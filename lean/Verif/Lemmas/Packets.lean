import Verif.Spec.Packets
import Verif.Lemmas.FntCode

/-!
A non-systematic object that meets `FecV.VSpec` codes every data.
-/

namespace Quad
open Spec

theorem CodeOf.exists (w k nOut : Nat) (st : Array Nat → Nat → Nat) (mk : Array Nat → Nat → Option Nat) (data : Array (List Nat)) (T : Nat) :
    ∃ frags props, CodeOf w k nOut st mk data T frags props :=
  ⟨Array.ofFn (fun f : Fin nOut => flat w (fun t => st (rowAt w k (gt data) t) f) T),
    Array.ofFn (fun f : Fin nOut => ⟨marksOf (fun t => mk (rowAt w k (gt data) t) f) T⟩), by simp, by simp,
    fun f hf => by rw [gt_ofFn hf], fun f hf => by rw [gt_ofFn hf]⟩

theorem PacketCode.of {E : FecV} {st : Array Nat → Nat → Nat} {mk : Array Nat → Nat → Option Nat}
    (hV : E.VSpec st mk 0 (fun _ _ => True)) (hpkt : 0 < E.base.pkt_size) {w k m T : Nat} (hsys : E.base.sys = false)
    (hw : E.base.word_size = w) (hk : E.base.n_data = k) (hout : E.base.n_outputs = k + m) {data frags : Array (List Nat)}
    {fprops : Array Properties} (hd : StreamData w k data T) (hc : CodeOf w k (k + m) st mk data T frags fprops) :
    PacketCode E w k m T data frags fprops := by
  have hkp : 0 < k := by rw [← hk]; exact hV.kpos
  have hdl : ∀ a, E.base.dataList a = [] := fun a => by
    unfold FecBase.dataList; rw [hsys]; rfl
  have hstart : ∀ {blk : Option (Array Nat)} {s : List Nat}, StartsWith blk s → s.length = T * w →
      ∃ d, blk = some d ∧ T * w ≤ d.size ∧ d.toList.take (T * w) = s := by
    rintro blk s ⟨d, h1, _, h3⟩ h4
    refine ⟨d, h1, ?_, ?_⟩
    · have := h3.length_le; rw [h4] at this; simpa using this
    · rw [← h4]; exact FntCode.take_of_prefix h3
  refine ⟨?_, ?_, ?_, ?_⟩
  · intro enc outs props junk H h2 h3
    obtain ⟨o, p', e', H', e, _, q2, q3, q4⟩ := FecV.encode_streams_vertical_spec hV hpkt (enc := enc) (H := H) trivial
      (data := data) (outs := outs) (props := props) (T := T) junk (by rw [hk]; exact hd.size) (by rw [hout]; exact h2)
      (by rw [hout]; exact h3) (by rw [hk]; exact hd.bytes) (by rw [hk, hw]; exact hd.len)
    rw [hk, hw, hout] at q4
    have hp : p' = fprops := gt_ext (by rw [q3, hout, hc.psize]) (fun i hi => by
      rw [q3, hout] at hi; rw [(q4 i hi).2, hc.prop i hi])
    rw [hp] at e
    exact ⟨o, e', H', e, q2.trans hout, fun f hf => by rw [(q4 f hf).1, hc.frag f hf]⟩
  · intro datas pars outs props mem junk H h1 h2 h3 h4
    obtain ⟨⟨v, o, H'⟩, e, _, q2⟩ := FecV.decode_streams_vertical_spec hV hpkt (C0 := default) (H := H) trivial (D := gt data) (T := T) (datas := datas)
      (pars := pars) (outs := outs) (props := props) mem junk (by rw [hk]; exact hd.bytes) (by rw [hk, hw]; exact hd.len)
      (by rw [hsys]; intro h; cases h) (by rw [hout]; exact h1) (by rw [hout]; exact h2) (by rw [hk]; exact h3)
      (by rw [hsys]; intro h; cases h)
      (by
        rw [hout, hw, hk]
        intro f s hf hfs
        obtain ⟨e1, e2⟩ := h4 f s hf hfs
        exact ⟨by rw [e1, hc.frag f hf], by rw [e2, hc.prop f hf]⟩)
    have hpl : (present (pars.map Option.isSome) (k + m)).length = avail pars := present_eq_avail pars h1
    rw [hdl, hk, hout, hpl, if_neg (by simp; omega)] at q2
    refine ⟨v, o, H', e, ?_⟩
    simp only [List.length_nil, Nat.zero_add] at q2
    by_cases h : avail pars < k
    · rw [if_pos h] at q2 ⊢; cases q2; exact ⟨rfl, rfl⟩
    · rw [if_neg h] at q2 ⊢; exact q2
  · intro enc datas pars props wanted bytes junk H hb h1 hs h2 h3 hw1 hw2
    have hl : ∀ i, i < k → (((gt datas i).getD #[]).toList.take (T * w)) = gt data i ∧ T * w ≤ ((gt datas i).getD #[]).size ∧
        gt datas i = some ((gt datas i).getD #[]) ∧ ∀ x ∈ ((gt datas i).getD #[]).toList, x < 256 := by
      intro i hi
      obtain ⟨d, hd1, hd2, hd3⟩ := hs i hi
      rw [hd1]
      refine ⟨?_, ?_, rfl, hd2⟩
      · have := FntCode.take_of_prefix hd3
        rwa [hd.len i hi] at this
      · have := hd3.length_le
        rw [hd.len i hi] at this
        simpa using this
    obtain ⟨o, p', e', H', e, _, q2, q3, q4⟩ := FecV.encode_blocks_vertical_spec hV hpkt (enc := enc) (H := H) trivial
      (B := fun i => (gt datas i).getD #[]) (T := T) (bytes := bytes)
      (datas := datas) (pars := pars) (props := props) (wanted := wanted) junk (by rw [hw]; exact hb) (by rw [hk]; exact h1)
      (by rw [hk]; exact fun i hi => (hl i hi).2.2.1) (by rw [hout]; exact h2) (by rw [hout]; exact h3)
      (by rw [hk]; exact fun i hi => (hl i hi).2.2.2) (by rw [hk, hw]; exact fun i hi => (hl i hi).2.1) (by rw [hout]; exact hw1)
      (by rw [hout, hw]; exact hw2)
    rw [hout, hk, hw] at q4
    have hrow : ∀ t, rowAt w k (fun i => ((gt datas i).getD #[]).toList.take (T * w)) t = rowAt w k (gt data) t := by
      intro t
      apply gt_ext (by simp [rowAt])
      intro i hi
      have hi' : i < k := by simpa [rowAt] using hi
      rw [rowAt_gt hi', rowAt_gt hi', (hl i hi').1]
    simp only [hrow] at q4
    have hp : p' = fprops := gt_ext (by rw [q3, hout, hc.psize]) (fun i hi => by
      rw [q3, hout] at hi; rw [(q4 i hi).2, hc.prop i hi])
    rw [hp] at e
    exact ⟨o, e', H', e, q2.trans hout, fun f hf => by rw [(q4 f hf).1, hc.frag f hf]; rfl⟩
  · intro datas pars props missing wanted bytes mem junk H hb h1 h2 h3 h4 hw1 h5 hw2
    obtain ⟨⟨v, o, H'⟩, e, _, q2⟩ := FecV.decode_blocks_vertical_spec hV hpkt (C0 := default) (H := H) trivial (D := gt data) (T := T) (bytes := bytes)
      (datas := datas) (pars := pars) (props := props) (missing := missing) (wanted := wanted) mem junk (by rw [hw]; exact hb)
      (by rw [hk]; exact hd.bytes) (by rw [hk, hw]; exact hd.len) (by rw [hk]; exact h1) (by rw [hout]; exact h2)
      (by rw [hout]; exact h3) (by rw [hsys, hout, h4]; rfl) (by rw [hk]; exact hw1)
      (by rw [hsys]; intro h; cases h)
      (by
        rw [hsys, hk, hw, hout]
        intro f hf hm
        obtain ⟨e1, e2⟩ := h5 f hf hm
        refine ⟨?_, by rw [e2, hc.prop f hf]⟩
        have := hstart e1 (by rw [hc.frag f hf, flat_length])
        rwa [hc.frag f hf] at this)
      (by rw [hk, hw]; exact hw2) rfl rfl
    have htot := present_not_count h4
    rw [hk, hw, hout, hsys] at q2
    simp only [Bool.false_eq_true, if_false] at q2
    rw [hdl, htot, if_neg (by simp; omega)] at q2
    refine ⟨v, o, H', e, ?_⟩
    simp only [List.length_nil, Nat.zero_add] at q2
    by_cases h : missing.toList.count false < k
    · rw [if_pos h] at q2 ⊢; cases q2; exact ⟨rfl, rfl⟩
    · rw [if_neg h] at q2 ⊢; exact q2

end Quad
