import Verif.Props.Lengths
import Verif.Props.AnyLanes

/-!
# Streams of different lengths, packed Fermat code (C63, C64)

The vocabulary is in Spec/Lengths.lean.
-/

namespace Quad.Props
open Quad Spec Polynomial

theorem fit_stream {w k T : Nat} {data : Array (List Nat)} (hs : data.size = k) (hb : ∀ i, i < k → ∀ x ∈ gt data i, x < 256) :
    StreamData w k (data.map (fit (T * w))) T :=
  ⟨by simpa using hs, fun i hi => by rw [gt_map (by omega), fit_length], fun i hi => by rw [gt_map (by omega)]; exact fit_bytes (hb i hi)⟩

theorem fitAll_lane {w n t l : Nat} (fr : Array (Option (List Nat))) (P : Properties) (j : Nat) (h : (t + 1) * w ≤ n) :
    laneAt w ((gt (FecV.fitAll n fr) j).getD []) P t l = laneAt w ((gt fr j).getD []) P t l := by
  unfold laneAt
  rw [FecV.fitAll_gt]
  congr 2
  cases gt fr j with
  | none => rfl
  | some s => exact word_fit s h

theorem fitAll_lanes {g : ZMod 65537} {w k T : Nat} {fr : Array (Option (List Nat))} {props : Array Properties} {r : Nat → List Nat}
    (h : LanesDecoded g w k T (FecV.fitAll (T * w) fr) props r) : LanesDecoded g w k T fr props r := by
  intro t l ht hl
  have hle : (t + 1) * w ≤ T * w := Nat.mul_le_mul_right _ ht
  obtain ⟨P, P1, P2, P3, P4⟩ := h t l ht hl
  rw [fitAll_picked] at P2 P3
  refine ⟨P, P1, fun j hj => ?_, fun Q Q1 Q2 => P3 Q Q1 fun j hj => ?_, P4⟩
  · rw [← fitAll_lane fr _ j hle]; exact P2 j hj
  · rw [fitAll_lane fr _ j hle]; exact Q2 j hj

/-- a word of `2 * n` bytes is known by its symbols -/
theorem lane16_ext {n a b : Nat} (ha : a < 2 ^ (16 * n)) (hb : b < 2 ^ (16 * n)) (h : ∀ l, l < n → lane16 a l = lane16 b l) : a = b := by
  refine Nat.eq_of_testBit_eq (fun i => ?_)
  by_cases hi : i < 16 * n
  · have key : ∀ x : Nat, x.testBit i = (lane16 x (i / 16)).testBit (i % 16) := by
      intro x
      unfold lane16
      rw [Nat.testBit_mod_two_pow, Nat.testBit_div_two_pow, decide_eq_true (Nat.mod_lt i (by norm_num)), Bool.true_and, Nat.add_comm, Nat.div_add_mod]
    rw [key a, key b, h _ (by omega)]
  · rw [Nat.testBit_lt_two_pow (lt_of_lt_of_le ha (Nat.pow_le_pow_right (by norm_num) (by omega))),
      Nat.testBit_lt_two_pow (lt_of_lt_of_le hb (Nat.pow_le_pow_right (by norm_num) (by omega)))]

theorem word_ext {w t : Nat} (hw : w = 2 ∨ w = 4 ∨ w = 8) {s s' : List Nat} (hs : ∀ x ∈ s, x < 256) (hs' : ∀ x ∈ s', x < 256)
    (h : ∀ l, l < w / 2 → lane16 (word w s t) l = lane16 (word w s' t) l) : word w s t = word w s' t := by
  have e : (256 : Nat) ^ w = 2 ^ (16 * (w / 2)) := by rcases hw with rfl | rfl | rfl <;> norm_num
  have h1 := wordAt_lt (w := w) hs t
  have h2 := wordAt_lt (w := w) hs' t
  rw [wordAt_word, e] at h1 h2
  exact lane16_ext h1 h2 h

/-- one of the first `k` available fragments, and its place among them -/
theorem picked_some {k : Nat} {fr : Array (Option (List Nat))} {f : Nat} (hf : f ∈ picked k fr) :
    f < fr.size ∧ ∃ x s, x < k ∧ gt fr f = some s ∧ lenPicked k fr x = s.length := by
  refine ⟨picked_lt hf, ?_⟩
  obtain ⟨x, hx, hxe⟩ := mem_gt hf
  have h1 : (picked k fr).length ≤ k := by unfold picked; exact List.length_take_le _ _
  obtain ⟨s, hs⟩ := Option.isSome_iff_exists.mp (List.mem_filter.mp (List.mem_of_mem_take hf)).2
  exact ⟨x, s, by omega, hs, by unfold lenPicked; rw [hxe, hs]; rfl⟩

/-- with `k` fragments available, `k` are picked -/
theorem picked_get {k : Nat} {fr : Array (Option (List Nat))} (h : k ≤ avail fr) {x : Nat} (hx : x < k) :
    ∃ f, f ∈ picked k fr ∧ lenPicked k fr x = ((gt fr f).getD []).length := by
  have hl : (picked k fr).length = k := by
    have h1 := present_eq_avail fr rfl
    unfold present at h1
    unfold picked
    rw [List.length_take]
    have h2 : (List.filter (fun i => (gt fr i).isSome) (List.range fr.size)).length = avail fr := by
      rw [← show countAvail fr = avail fr from rfl, ← h1]
      congr 1
      refine List.filter_congr (fun i hi => ?_)
      have := List.mem_range.mp hi
      rw [gt_map this]
    omega
  refine ⟨gt (picked k fr).toArray x, ?_, rfl⟩
  have : x < (picked k fr).length := by omega
  rw [show gt (picked k fr).toArray x = (picked k fr)[x] by simp [gt, this]]
  exact List.getElem_mem _

variable {E : FecV} {w k m pkt : Nat}

theorem encodesLengths {Γ : Type} {E' : Fec Γ} (hw : 0 < w) (hpkt : 0 < pkt) (hbuf : E.buf_size = pkt * w) (hk : E.base.n_data = k)
    (hout : E.base.n_outputs = k + m)
    (h : ∀ {data : Array (List Nat)} {T : Nat} (mem' : Nat → Nat), StreamData w k data T → ∃ frags fprops,
      E'.encode_streams_horizontal data (Array.replicate (k + m) []) (Array.replicate (k + m) .empty) mem' = .ok (frags, fprops) ∧
      PacketCode E w k m T data frags fprops) : EncodesLengths E E' w k m pkt := by
  intro data j mem hs hb hj
  rw [wholePkts_words]
  obtain ⟨frags, fprops, e, hP⟩ := h mem (fit_stream hs hb (w := w) (T := ((gt data j).length + pkt * w - 1) / (pkt * w) * pkt))
  refine ⟨frags, fprops, e, fun enc outs props junk H ho hp => ?_⟩
  obtain ⟨o, C', H', e', q1, q2⟩ := hP.encode enc outs props junk H ho hp
  rw [← wholePkts_words, ← hbuf] at e'
  obtain ⟨o', e'', hcut⟩ := FecV.encode_streams_vertical_fit (by rw [hbuf]; exact Nat.mul_pos hpkt hw) (by rw [hbuf, hk]; exact hj) e'
  refine ⟨o', C', H', e'', by rw [hcut.size']; simpa using ho, fun f hf => ?_⟩
  rw [hcut.some f (gt outs f) (by rw [hout]; exact hf) (gt_map (by omega)), q2 f hf, Option.map_some, List.take_append, List.take_of_length_le (by omega),
    Nat.add_sub_cancel_left]

theorem decodesLengths {g : ZMod 65537} (hw : 0 < w) (hpkt : 0 < pkt) (hk0 : 0 < k) (hbuf : E.buf_size = pkt * w) (hk : E.base.n_data = k)
    (hout : E.base.n_outputs = k + m) (hsys : E.base.sys = false) (h : DecodesPackets E g w k m) : DecodesLengths E g w k m pkt := by
  intro datas pars outs props j mem junk H h1 h2 h3 h4 h5 hj
  have hbp : 0 < pkt * w := Nat.mul_pos hpkt hw
  set L := lenPicked k pars j with hL
  set T := (L + pkt * w - 1) / (pkt * w) * pkt with hT
  have hW : wholePkts (pkt * w) L = T * w := wholePkts_words L
  obtain ⟨v, o, H', e, q⟩ := h.streams T (FecV.fitAll (T * w) datas) (FecV.fitAll (T * w) pars) outs props mem junk H (by rw [FecV.fitAll_size]; exact h1) h2 h3
    (fun f s hf hs => by
      rw [FecV.fitAll_gt, Option.map_eq_some_iff] at hs
      obtain ⟨s', hs', rfl⟩ := hs
      exact ⟨fit_length _ _, fit_bytes (h4 f s' hf hs')⟩)
  rw [fitAll_avail, if_neg (by omega)] at q
  obtain ⟨rfl, q1, r, q2, q3⟩ := q
  rw [← hW] at e
  have hdl : (E.base.dataList (datas.map Option.isSome)).length = 0 := by
    unfold FecBase.dataList
    rw [if_neg (by rw [hsys]; simp)]; rfl
  have hpl : (present (pars.map Option.isSome) E.base.n_outputs).length = avail pars := by rw [hout]; exact present_eq_avail pars h1
  obtain ⟨o', e', hcut⟩ := FecV.decode_streams_vertical_fit (E := E) (by rw [hbuf]; exact hbp) (fun h => by rw [hsys] at h; cases h) (by rw [hout]; exact h1)
    (by rw [hout]; exact h2) (by rw [hk]; exact h3) (by rw [hdl, hk]; omega) (by rw [hdl, hpl, hk]; omega) (len := lenPicked k pars) (j := j)
    (by rw [hk, hsys]; exact fun i => rfl) (by rw [hbuf, hk]; exact hj) (by rw [hbuf]; exact e)
  rw [hk] at hcut
  refine ⟨o', H', r, e', by rw [hcut.size', h3], ?_, fun i hi => ⟨?_, by rw [hW]; exact (q3 i hi).1, (q3 i hi).2.1⟩⟩
  · rw [hW, Nat.mul_div_cancel _ hw]; exact fitAll_lanes q2
  · obtain ⟨_, _, q4⟩ := q3 i hi
    cases hgo : gt outs i with
    | none => rw [(hcut.none i hgo).2, Option.map_none]
    | some s =>
      rw [hcut.some i s hi hgo, q4, hgo, Option.map_some, Option.map_some, Option.map_some, List.take_append, List.take_of_length_le (by omega),
        Nat.add_sub_cancel_left]

/-- C63 and C64 for the packed Fermat code, every build, word type, word size and packet size but 0: what encoding and decoding do with streams of any lengths.  `c` is
the object that codes word by word, whose symbols are the values of the polynomials made of the data.
Missing: what is beyond the `L` bytes is not protected, what is cut off is taken as zeros, and neither is reported (`C63_packed_data_lost`,
`C64_packed_truncation_undetected`). -/
theorem C64_packed_partial {k m : Nat} (hk : 0 < k) (hm : 0 < m) (hlen : k + m ≤ 65536) (htwo : 2 * k ≤ 65536) :
    ∃ (n : Nat) (g : ZMod 65537), IsPrimitiveRoot g n ∧ k + m ≤ n ∧
    ∀ {w b pkt : Nat} {reg : Option Nat} {hi : Nat → Nat} (mem : Nat → Nat), w = 2 ∨ w = 4 ∨ w = 8 → Nf4Reg reg →
      Nf4Build b (w / 2) (RsNf4Obj.nf4Simd b reg hi) → 0 < pkt →
      ∃ R c, RsNf4Obj.mk' b reg hi w k m pkt mem = .ok R ∧ RsNf4.mkCode b (RsNf4Obj.nf4Simd b reg hi) w k m pkt mem = .ok c ∧
        EncodesLanes (RsNf4.fec c) g w k (k + m) ∧ EncodesLengths (R.fecV b) (RsNf4.fec c) w k m pkt ∧ DecodesLengths (R.fecV b) g w k m pkt := by
  obtain ⟨n, g, hg, hn, hall⟩ := C62_packets hk hm hlen htwo
  obtain ⟨_, _, _, _, hall'⟩ := RsNf4Obj.mk'_spec hk hm hlen
  refine ⟨n, g, hg, hn, fun {w b pkt reg hi} mem hw hreg hB hpkt => ?_⟩
  obtain ⟨R, c, e, e', hD, hE, hP⟩ := hall (pkt := pkt) (hi := hi) mem hw hreg hB hpkt
  obtain ⟨R', r1, _, e1, e2, S, n', l2, g2, o1, o2, o3, G⟩ := hall' (pkt := pkt) (hi := hi) hreg ⟨hw, hB, hk, hm, hlen, htwo⟩ mem
  rw [e] at r1
  obtain rfl := Except.ok.inj r1
  have hbuf : (R.fecV b).buf_size = pkt * w := by
    show R.code.base.pkt_size * R.code.base.word_size = _
    have h1 : R.code.base.word_size = w := e1
    have h2 : R.code.base.pkt_size = pkt := e2
    rw [h1, h2]
  have hw0 : 0 < w := by omega
  exact ⟨R, c, e, e', hE, encodesLengths hw0 hpkt hbuf G.good.n_data G.good.n_outputs hP,
    decodesLengths hw0 hpkt hk hbuf G.good.n_data G.good.n_outputs G.good.sys hD⟩

/-- C64, what is there is recovered: at every location `t` of the `L` bytes and for every `l`, where the first `k` available fragments have the symbols of an encoding
of `data`, the symbol decoded is that of `data`, whatever the lengths of the fragments.  Missing: see `C64_packed_partial`. -/
theorem C64_packed_recover_partial {Γ : Type} {E' : Fec Γ} {g : ZMod 65537} {T : Nat} (hw : 0 < w) (hE : EncodesLanes E' g w k (k + m))
    (hD : DecodesLengths E g w k m pkt) (hpkt : 0 < pkt) {data : Array (List Nat)} (hd : Gf2nData w k data T) (mem' : Nat → Nat) :
    ∃ frags fprops, E'.encode_streams_horizontal data (Array.replicate (k + m) []) (Array.replicate (k + m) .empty) mem' = .ok (frags, fprops) ∧
    ∀ {datas pars outs : Array (Option (List Nat))} {props : Array Properties} {j : Nat} (mem : Nat → Nat) (junk : Nat → Nat → Nat) (H : Heap),
      pars.size = k + m → props.size = k + m → outs.size = k → (∀ f s, f < k + m → gt pars f = some s → ∀ x ∈ s, x < 256) → k ≤ avail pars →
      LastShort (pkt * w) k (lenPicked k pars) j →
      ∃ o H', ∃ out : Nat → List Nat, E.decode_streams_vertical datas pars props outs mem junk H = .ok (true, o, H') ∧
        (∀ i, i < k → gt o i = (gt outs i).map (fun s => s ++ out i) ∧ (out i).length = lenPicked k pars j ∧ ∀ x ∈ out i, x < 256) ∧
        ∀ t l, t < T → (t + 1) * w ≤ lenPicked k pars j → l < w / 2 →
          (∀ f ∈ picked k pars, laneAt w ((gt pars f).getD []) (gt props f) t l = laneAt w (gt frags f) (gt fprops f) t l) →
          ∀ i, i < k → lane16 (word w (out i) t) l = lane16 (word w (gt data i) t) l := by
  obtain ⟨frags, fprops, e, _⟩ := hE data T mem' hd
  refine ⟨frags, fprops, e, fun {datas pars outs props j} mem junk H h1 h2 h3 h4 h5 hj => ?_⟩
  have hle := wholePkts_le (Nat.mul_pos hpkt hw) (lenPicked k pars j)
  obtain ⟨o, H', r, e1, _, q1, q2⟩ := hD (datas := datas) mem junk H h1 h2 h3 h4 h5 hj
  refine ⟨o, H', fun i => (r i).take (lenPicked k pars j), e1, fun i hi => ⟨(q2 i hi).1, ?_, fun x hx => (q2 i hi).2.2 x (List.mem_of_mem_take hx)⟩, fun t l ht htL hl hag i hi => ?_⟩
  · rw [List.length_take, (q2 i hi).2.1]; omega
  · obtain ⟨frags', fprops', e', hrec⟩ := C62_recover hE h1 q1 hd mem'
    rw [e] at e'
    have e' := Except.ok.inj e'
    injection e' with e1 e2
    subst e1; subst e2
    rw [word_take _ htL]
    refine hrec t l ?_ ht hl hag i hi
    have := Nat.div_le_div_right (c := w) (le_trans htL hle)
    rw [Nat.mul_div_cancel _ hw] at this
    exact this

/-- C64 for fragments of which the ends may be missing: the words that all of the first `k` available fragments have are recovered.
Missing: the other words are decoded too, from zeros in place of what is missing, which is not reported. -/
theorem C64_packed_prefix_partial {Γ : Type} {E' : Fec Γ} {g : ZMod 65537} {T : Nat} (hw : w = 2 ∨ w = 4 ∨ w = 8) (hk : 0 < k)
    (hE : EncodesLanes E' g w k (k + m)) (hD : DecodesLengths E g w k m pkt) (hpkt : 0 < pkt) {data : Array (List Nat)}
    (hd : StreamData w k data T) (mem' : Nat → Nat) :
    ∃ frags fprops, E'.encode_streams_horizontal data (Array.replicate (k + m) []) (Array.replicate (k + m) .empty) mem' = .ok (frags, fprops) ∧
    ∀ {datas pars outs : Array (Option (List Nat))} {props : Array Properties} (mem : Nat → Nat) (junk : Nat → Nat → Nat) (H : Heap),
      pars.size = k + m → props.size = k + m → outs.size = k →
      (∀ f s, f < k + m → gt pars f = some s → s <+: gt frags f ∧ gt props f = gt fprops f) → k ≤ avail pars →
      ∃ o H', ∃ out : Nat → List Nat, E.decode_streams_vertical datas pars props outs mem junk H = .ok (true, o, H') ∧
        (∀ i, i < k → gt o i = (gt outs i).map (fun s => s ++ out i)) ∧
        ∀ t, (∀ i, i < k → (t + 1) * w ≤ lenPicked k pars i) →
          ∀ i, i < k → (t + 1) * w ≤ (out i).length ∧ word w (out i) t = word w (gt data i) t := by
  have hw0 : 0 < w := by omega
  have hd' : Gf2nData w k data T := ⟨hd.size, hd.bytes, fun i hi => (hd.len i hi).ge, 0, hk, by rw [hd.len 0 hk, Nat.succ_mul]; omega⟩
  obtain ⟨frags, fprops, e, z1, z2, z3, _⟩ := hE data T mem' hd'
  refine ⟨frags, fprops, e, fun {datas pars outs props} mem junk H h1 h2 h3 h4 h5 => ?_⟩
  obtain ⟨j, hj⟩ := exists_lastShort (pkt * w) hk (lenPicked k pars)
  obtain ⟨frags', fprops', e', hrec⟩ := C64_packed_recover_partial hw0 hE hD hpkt hd' mem'
  rw [e] at e'
  have e' := Except.ok.inj e'
  injection e' with e1 e2
  subst e1; subst e2
  obtain ⟨o, H', out, e1, q1, q2⟩ := hrec (datas := datas) mem junk H h1 h2 h3 (fun f s hf hs x hx => (z3 f hf).2 x ((h4 f s hf hs).1.subset hx)) h5 hj
  refine ⟨o, H', out, e1, fun i hi => (q1 i hi).1, fun t ht i hi => ⟨by rw [(q1 i hi).2.1]; exact ht j hj.lt, ?_⟩⟩
  have htT : t < T := by
    obtain ⟨f, hf, _⟩ := picked_get h5 hk
    obtain ⟨hf1, x, s, hx, hs, hl⟩ := picked_some hf
    have := (h4 f s (by omega) hs).1.length_le
    rw [(z3 f (by omega)).1, ← hl] at this
    exact Nat.lt_of_mul_lt_mul_right (lt_of_lt_of_le (by rw [Nat.add_mul]; omega) (le_trans (ht x hx) this))
  refine word_ext hw (q1 i hi).2.2 (hd.bytes i hi) (fun l hl => q2 t l htT (ht j hj.lt) hl (fun f hf => ?_) i hi)
  obtain ⟨hf1, x, s, hx, hs, hl⟩ := picked_some hf
  obtain ⟨g1, g2⟩ := h4 f s (by omega) hs
  unfold laneAt
  rw [hs, g2, Option.getD_some, word_prefix g1 (by rw [← hl]; exact ht x hx)]

/-- C63, the way back: from any `k` of the fragments, as they were written, decoding yields the words of `data`, cut or completed with zeros to the `L` bytes that
were written, whatever the lengths of the data streams.
Missing: what is beyond the `L` bytes (`C63_packed_data_lost`), and the last word if `L` is not a multiple of the word size. -/
theorem C63_packed_round_trip_partial {Γ : Type} {E' : Fec Γ} {g : ZMod 65537} (hw : w = 2 ∨ w = 4 ∨ w = 8) (hk : 0 < k)
    (hE : EncodesLanes E' g w k (k + m)) (hN : EncodesLengths E E' w k m pkt) (hD : DecodesLengths E g w k m pkt) (hpkt : 0 < pkt)
    {data : Array (List Nat)} (hs : data.size = k) (hb : ∀ i, i < k → ∀ x ∈ gt data i, x < 256) {j L : Nat}
    (hj : LastShort (pkt * w) k (fun i => (gt data i).length) j) (hL : L = (gt data j).length)
    (enc : CtxB) (props0 : Array Properties) (junk0 : Nat → Nat → Nat) (H0 : Heap) (hp0 : props0.size = k + m) :
    ∃ (o0 : Array (Option (List Nat))) (fprops : Array Properties) (enc' : CtxB) (H0' : Heap),
      E.encode_streams_vertical enc data (Array.replicate (k + m) []) props0 junk0 H0 = .ok (o0, fprops, enc', H0') ∧
      ∀ {datas pars outs : Array (Option (List Nat))} {props : Array Properties} (mem : Nat → Nat) (junk : Nat → Nat → Nat) (H : Heap),
        pars.size = k + m → props.size = k + m → outs.size = k →
        (∀ f s, f < k + m → gt pars f = some s → some s = gt o0 f ∧ gt props f = gt fprops f) → k ≤ avail pars →
        ∃ o H', ∃ out : Nat → List Nat, E.decode_streams_vertical datas pars props outs mem junk H = .ok (true, o, H') ∧
          ∀ i, i < k → gt o i = (gt outs i).map (fun s => s ++ out i) ∧ (out i).length = L ∧
            ∀ t, (t + 1) * w ≤ L → word w (out i) t = word w (gt data i) t := by
  have hw0 : 0 < w := by omega
  have hle := wholePkts_le (Nat.mul_pos hpkt hw0) L
  set T := (L + pkt * w - 1) / (pkt * w) * pkt with hT
  have hW : wholePkts (pkt * w) L = T * w := wholePkts_words L
  obtain ⟨frags, fprops, e, hv⟩ := hN (fun _ => 0) hs hb hj
  rw [← hL, hW] at e
  rw [hW] at hle
  obtain ⟨o0, enc', H0', e0, s0, q0⟩ := hv enc (Array.replicate (k + m) []) props0 junk0 H0 (by simp) hp0
  refine ⟨o0, fprops, enc', H0', e0, fun {datas pars outs props} mem junk H h1 h2 h3 h4 h5 => ?_⟩
  have hd : StreamData w k (data.map (fit (T * w))) T := fit_stream hs hb
  have hd' : Gf2nData w k (data.map (fit (T * w))) T :=
    ⟨hd.size, hd.bytes, fun i hi => (hd.len i hi).ge, 0, hk, by rw [hd.len 0 hk, Nat.succ_mul]; omega⟩
  obtain ⟨frags', fprops', e', z1, z2, z3, _⟩ := hE _ T (fun _ => 0) hd'
  rw [e] at e'
  have e' := Except.ok.inj e'
  injection e' with e1 e2
  subst e1; subst e2
  have hpar : ∀ f s, f < k + m → gt pars f = some s → s = (gt frags f).take L ∧ gt props f = gt fprops f := by
    intro f s hf hs'
    obtain ⟨g1, g2⟩ := h4 f s hf hs'
    rw [q0 f hf, gt_replicate hf, List.nil_append, ← hL] at g1
    exact ⟨Option.some.inj g1, g2⟩
  have hlenP : ∀ x, x < k → lenPicked k pars x = L := by
    intro x hx
    obtain ⟨f, hf, hl⟩ := picked_get h5 hx
    obtain ⟨hf1, _, s, _, hs', _⟩ := picked_some hf
    rw [hl, hs', Option.getD_some, (hpar f s (by omega) hs').1, List.length_take, (z3 f (by omega)).1]
    omega
  obtain ⟨l, hl⟩ := exists_lastShort (pkt * w) hk (lenPicked k pars)
  obtain ⟨frags', fprops', e', hrec⟩ := C64_packed_recover_partial hw0 hE hD hpkt hd' (fun _ => 0)
  rw [e] at e'
  have e' := Except.ok.inj e'
  injection e' with e1 e2
  subst e1; subst e2
  obtain ⟨o, H', out, e1, q1, q2⟩ := hrec (datas := datas) mem junk H h1 h2 h3
    (fun f s hf hs' x hx => (z3 f hf).2 x (List.mem_of_mem_take ((hpar f s hf hs').1 ▸ hx))) h5 hl
  rw [hlenP l hl.lt] at q1 q2
  refine ⟨o, H', out, e1, fun i hi => ⟨(q1 i hi).1, (q1 i hi).2.1, fun t ht => ?_⟩⟩
  have htT : t < T := Nat.lt_of_mul_lt_mul_right (lt_of_lt_of_le (by rw [Nat.add_mul]; omega) (le_trans ht hle))
  have hwf := word_fit (gt data i) (le_trans ht hle)
  rw [← hwf, ← gt_map (f := fit (T * w)) (show i < data.size by omega)]
  refine word_ext hw (q1 i hi).2.2 (hd.bytes i hi) (fun l' hl' => q2 t l' htT ht hl' (fun f hf => ?_) i hi)
  obtain ⟨hf1, x, s, hx, hs', _⟩ := picked_some hf
  obtain ⟨g1, g2⟩ := hpar f s (by omega) hs'
  unfold laneAt
  rw [hs', g2, Option.getD_some, g1, word_take _ ht]

/-- the full C63 fails: with at least two data streams, data that differ are encoded without a complaint into the same fragments and properties -/
theorem C63_packed_data_lost {Γ : Type} {E' : Fec Γ} (hw : 0 < w) (hk : 2 ≤ k) (hN : EncodesLengths E E' w k m pkt) (hpkt : 0 < pkt) :
    ∃ data data' : Array (List Nat), data ≠ data' ∧ data.size = k ∧ data'.size = k ∧
      (∀ i, i < k → (gt data i).length = (gt data' i).length ∧ (∀ x ∈ gt data i, x < 256) ∧ ∀ x ∈ gt data' i, x < 256) ∧
      ∀ (enc : CtxB) (outs : Array (List Nat)) (props : Array Properties) (junk : Nat → Nat → Nat) (H : Heap), outs.size = k + m → props.size = k + m →
        ∃ o p C1 H1 C2 H2, E.encode_streams_vertical enc data outs props junk H = .ok (o, p, C1, H1) ∧
          E.encode_streams_vertical enc data' outs props junk H = .ok (o, p, C2, H2) := by
  let D : Nat → Array (List Nat) := fun x => Array.ofFn (fun i : Fin k => if i.1 = 0 then [x] else [])
  have hD : ∀ x i, i < k → gt (D x) i = if i = 0 then [x] else [] := fun x i hi => gt_ofFn hi
  have hsz : ∀ x, (D x).size = k := fun x => by simp [D]
  have hby : ∀ x, x < 256 → ∀ i, i < k → ∀ y ∈ gt (D x) i, y < 256 := by
    intro x hx i hi y hy
    rw [hD x i hi] at hy
    split at hy
    · rw [List.mem_singleton.mp hy]; exact hx
    · cases hy
  refine ⟨D 1, D 2, ?_, hsz _, hsz _, fun i hi => ⟨?_, hby 1 (by omega) i hi, hby 2 (by omega) i hi⟩, fun enc outs props junk H ho hp => ?_⟩
  · intro h
    have := congrArg (fun a => gt a 0) h
    simp only [hD _ 0 (show 0 < k by omega)] at this
    simp at this
  · rw [hD 1 i hi, hD 2 i hi]; split <;> rfl
  · have hj : ∀ x, LastShort (pkt * w) k (fun i => (gt (D x) i).length) (k - 1) := by
      intro x
      refine ⟨by omega, fun i hi => ?_, fun i h1 h2 => by omega⟩
      rw [hD x _ (by omega), if_neg (by omega)]; simp
    have hz : ∀ x, (gt (D x) (k - 1)).length = 0 := fun x => by rw [hD x _ (by omega), if_neg (by omega)]; rfl
    have hw0 : wholePkts (pkt * w) 0 = 0 := by
      have := Nat.mul_pos hpkt hw
      unfold wholePkts; rw [Nat.div_eq_of_lt (by omega), Nat.zero_mul]
    obtain ⟨fr, fp, he, hv⟩ := hN (fun _ => 0) (hsz 1) (hby 1 (by omega)) (hj 1)
    obtain ⟨fr', fp', he', hv'⟩ := hN (fun _ => 0) (hsz 2) (hby 2 (by omega)) (hj 2)
    obtain ⟨o, C1, H1, e, s1, s2⟩ := hv enc outs props junk H ho hp
    obtain ⟨o', C2, H2, e', s1', s2'⟩ := hv' enc outs props junk H ho hp
    rw [hz, hw0] at he he'
    have hoo : o = o' := gt_ext (by omega) (fun f hf => by
      rw [s2 f (by omega), s2' f (by omega), hz, hz]
      simp)
    have hdd : (D 1).map (fit 0) = (D 2).map (fit 0) := gt_ext (by simp [hsz]) (fun i hi => by
      have hi' : i < k := by simpa [hsz] using hi
      rw [gt_map (by rw [hsz]; exact hi'), gt_map (by rw [hsz]; exact hi')]
      simp [fit])
    rw [hdd, he'] at he
    have he := Except.ok.inj he
    injection he with h1 h2
    subst hoo; subst h2
    exact ⟨o, fp', C1, H1, C2, H2, e, e'⟩

/-- the full C64 fails: whatever the fragments, if the last of the first `k` available ones is empty, decoding reports success and writes nothing -/
theorem C64_packed_truncation_undetected {g : ZMod 65537} (hk : 0 < k) (hD : DecodesLengths E g w k m pkt)
    {datas pars outs : Array (Option (List Nat))} {props : Array Properties} (h1 : pars.size = k + m) (h2 : props.size = k + m) (h3 : outs.size = k)
    (h4 : ∀ f s, f < k + m → gt pars f = some s → ∀ x ∈ s, x < 256) (h5 : k ≤ avail pars) (hz : lenPicked k pars (k - 1) = 0)
    (mem : Nat → Nat) (junk : Nat → Nat → Nat) (H : Heap) :
    ∃ H', E.decode_streams_vertical datas pars props outs mem junk H = .ok (true, outs, H') := by
  obtain ⟨o, H', r, e, hos, _, q⟩ := hD (datas := datas) mem junk H h1 h2 h3 h4 h5 (j := k - 1)
    ⟨by omega, fun i _ => by rw [hz]; simp, fun i h1 h2 => by omega⟩
  refine ⟨H', ?_⟩
  rw [e]
  congr 2
  rw [Prod.mk.injEq]
  refine ⟨gt_ext (by omega) (fun i hi => ?_), rfl⟩
  rw [(q i (by omega)).1, hz]
  cases gt outs i <;> simp

/-- streams of different lengths, and fragments of different lengths, meet the hypotheses -/
example : LastShort (2 * 4) 3 (fun i => (gt #[[1, 2, 3, 4, 5, 6, 7, 8, 9, 10], [1, 2, 3], [1, 2, 3, 4, 5]] i).length) 2 ∧
    LastShort (2 * 4) 2 (lenPicked 2 #[none, some [1, 2, 3, 4, 5, 6, 7, 8, 9], some [7, 9], some [1]]) 1 := by
  refine ⟨⟨by decide, by decide, fun i h1 h2 => by omega⟩, ⟨by decide, by decide, fun i h1 h2 => by omega⟩⟩

end Quad.Props
