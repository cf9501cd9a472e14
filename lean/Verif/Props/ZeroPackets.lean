import Verif.Props.FecVert
import Verif.Lemmas.Packet

/-!
# Packets of no words (C36)

A code object can be made with `pkt_size` 0.  What its packet functions then do, for every code class.
-/

namespace Quad.Props
open Quad Spec

theorem readPkt_zero (s : List Nat) : readPkt 0 s = (#[], s, none) := by simp [readPkt]

/-- reading packets of no bytes leaves the streams and `read_bytes` as they are -/
theorem readPkts_zero {count : Nat} {idx : Nat → Res Nat} {s s' : Array (Option (List Nat)) × Array (Array Nat) × Nat × Bool} {dst : Nat}
    (h : readPkts 0 count dst idx s = .ok s') : s'.2.2.1 = s.2.2.1 := by
  unfold readPkts at h
  induction count generalizing s' with
  | zero => cases h; rfl
  | succ n ih =>
    rw [forN] at h
    obtain ⟨s1, e1, h⟩ := bind_ok h
    rw [← ih e1]
    obtain ⟨j, e2, h⟩ := bind_ok h
    obtain ⟨st, e3, h⟩ := bind_ok h
    cases st with
    | none => cases h
    | some st =>
      simp only [readPkt_zero] at h
      obtain ⟨wc, e4, h⟩ := bind_ok h
      obtain ⟨st', e5, h⟩ := bind_ok h
      cases h
      rfl

/-- C36 fails for packet size 0: whatever the code and the data, encoding streams returns normally and writes nothing at all.  (Without data streams to read from the
call would be undefined; a constructed code has at least one.) -/
theorem C36_zero_packets_streams {E : FecV} (hz : E.base.pkt_size = 0) {enc : CtxB} {data outs : Array (List Nat)} {props : Array Properties}
    (hd : data.size = E.base.n_data) (ho : outs.size = E.base.n_outputs) (hp : props.size = E.base.n_outputs) (junk : Nat → Nat → Nat) (H : Heap) :
    ∃ H', E.encode_streams_vertical enc data outs props junk H = .ok (outs.map some, props.map Properties.clear, enc, H') := by
  have hb : E.buf_size = 0 := by unfold FecV.buf_size; rw [hz, Nat.zero_mul]
  have hread : ∀ (wc : Array (Array Nat)), wc.size = E.base.n_data → ∃ s', readPkts 0 E.base.n_data 0 (fun i => .ok i) (data.map some, wc, 0, true) = .ok s' := by
    intro wc hwc
    unfold readPkts
    obtain ⟨s', e, _⟩ := forN_inv (n := E.base.n_data) (s := (data.map some, wc, 0, true))
      (f := fun i s => do
        let j ← (.ok i : Res Nat)
        let st ← rd s.1 j
        match st with
        | none => ub
        | some st => do
          let r := readPkt 0 st
          let wc ← wr s.2.1 (0 + i) r.1
          let streams ← wr s.1 j (some r.2.1)
          match r.2.2 with
          | some g => pure (streams, wc, g, false)
          | none => pure (streams, wc, s.2.2.1, s.2.2.2))
      (I := fun _ s => s.1.size = E.base.n_data ∧ s.2.1.size = E.base.n_data ∧ ∀ i, i < E.base.n_data → gt s.1 i = some (gt data i))
      ⟨by simpa using hd, hwc, fun i hi => gt_map (by omega)⟩ (by
        rintro i ⟨a, b, c, d⟩ hi ⟨h1, h2, h3⟩
        simp only at h1 h2 h3
        refine ⟨_, by
          rw [ok_bind, rd_gt (by simp only; omega), ok_bind]
          simp only
          rw [h3 i hi]
          simp only [readPkt_zero]
          rw [wr_ok (by omega), ok_bind, wr_ok (by omega), ok_bind]
          rfl, by simpa using h1, by simpa using h2, fun i' hi' => ?_⟩
        simp only
        rw [gt_set (by omega)]
        split
        · next h => rw [h]
        · exact h3 i' hi')
    exact ⟨s', e⟩
  unfold FecV.encode_streams_vertical
  simp only [cassert, hd, ho, hp, decide_true, if_true, ok_bind]
  unfold FecV.encLoop
  simp only [hb]
  obtain ⟨⟨a, b, c, d⟩, e⟩ := hread (freshChars junk E.base.n_data 0) (by simp [freshChars])
  have h0 := readPkts_zero e
  simp only at h0
  subst h0
  rw [e, ok_bind]
  exact ⟨_, rfl⟩

theorem encBlockLoop_zero {E : FecV} (hz : E.base.pkt_size = 0) {words output : Bufs} {datas : Array (Option (Array Nat))} {wanted : Array Bool} {bs off : Nat}
    (ho : off < bs) (fuel : Nat) {pars : Array (Option (Array Nat))} {s : EncSt} {x : Array (Option (Array Nat)) × EncSt} :
    E.encBlockLoop words output datas wanted bs fuel pars off s ≠ .ok x := by
  intro h
  cases fuel with
  | zero => cases h
  | succ fuel =>
    rw [FecV.encBlockLoop, if_pos ho] at h
    simp only [hz, Nat.zero_min, Nat.zero_mul] at h
    obtain ⟨_, _, h⟩ := bind_ok h
    obtain ⟨_, _, h⟩ := bind_ok h
    cases h

/-- C36 fails for packet size 0: encoding blocks of at least one word never returns normally (a statistic is divided by the size of a packet, which is undefined) -/
theorem C36_zero_packets_blocks {E : FecV} (hz : E.base.pkt_size = 0) (hw : 0 < E.base.word_size) {bytes : Nat} (hb : E.base.word_size ≤ bytes)
    (enc : CtxB) (datas pars : Array (Option (Array Nat))) (props : Array Properties) (wanted : Array Bool) (junk : Nat → Nat → Nat) (H : Heap)
    (x : Array (Option (Array Nat)) × Array Properties × CtxB × Heap) : E.encode_blocks_vertical enc datas pars props wanted bytes junk H ≠ .ok x := by
  intro h
  unfold FecV.encode_blocks_vertical at h
  obtain ⟨_, _, h⟩ := bind_ok h
  obtain ⟨_, _, h⟩ := bind_ok h
  obtain ⟨_, _, h⟩ := bind_ok h
  simp only at h
  obtain ⟨⟨a, b⟩, h1, _⟩ := bind_ok h
  exact encBlockLoop_zero hz (Nat.div_pos hb hw) _ h1

/-- C36 fails for packet size 0: the loop that decodes blocks of at least one word does not end, whatever number of iterations one allows -/
theorem C36_zero_packets_decode {E : FecV} (hz : E.base.pkt_size = 0) {words output : Bufs} {ids apar : Array Nat} {nd : Nat}
    {pars : Array (Option (Array Nat))} {props : Array Properties} {wanted : Array Bool} {bs off : Nat} (ho : off < bs) (fuel : Nat) :
    ∀ {datas : Array (Option (Array Nat))} {s : DecSt} (x : Array (Option (Array Nat)) × Heap),
      E.decBlockLoop words output ids apar nd pars props wanted bs fuel datas off s ≠ .ok x := by
  induction fuel with
  | zero => intro datas s x h; cases h
  | succ fuel ih =>
    intro datas s x h
    rw [FecV.decBlockLoop, if_pos ho] at h
    simp only [hz, Nat.add_zero] at h
    obtain ⟨_, _, h⟩ := bind_ok h
    obtain ⟨_, _, h⟩ := bind_ok h
    obtain ⟨_, _, h⟩ := bind_ok h
    obtain ⟨_, _, h⟩ := bind_ok h
    exact ih x h

theorem decLoop_zero {E : FecV} (hz : E.base.pkt_size = 0) {words output : Bufs} {ids apar : Array Nat} {nd : Nat} {props : Array Properties} {fuel : Nat}
    {datas pars outs : Array (Option (List Nat))} {s : DecSt} {off : Nat} {x : Array (Option (List Nat)) × Heap}
    (h : E.decLoop words output ids apar nd props fuel datas pars outs 0 off s = .ok x) : x.1 = outs := by
  have hb : E.buf_size = 0 := by unfold FecV.buf_size; rw [hz, Nat.zero_mul]
  cases fuel with
  | zero => cases h
  | succ fuel =>
    rw [FecV.decLoop] at h
    simp only [hb] at h
    obtain ⟨⟨d1, w1, r1, c1⟩, e1, h⟩ := bind_ok h
    obtain ⟨⟨d2, w2, r2, c2⟩, e2, h⟩ := bind_ok h
    have h1 : r1 = 0 := by
      by_cases hs : E.base.sys = true
      · rw [if_pos hs] at e1; exact readPkts_zero e1
      · rw [if_neg hs] at e1; cases e1; rfl
    have h2 : r2 = r1 := readPkts_zero e2
    rw [h1] at h2
    simp only [h2, if_true] at h
    cases h
    rfl

/-- C36 fails for packet size 0: decoding streams never writes anything, whatever it returns; `true` if there are enough fragments -/
theorem C36_zero_packets_decode_streams {E : FecV} (hz : E.base.pkt_size = 0) {datas pars outs o : Array (Option (List Nat))} {props : Array Properties}
    {mem : Nat → Nat} {junk : Nat → Nat → Nat} {H H' : Heap} {v : Bool} (h : E.decode_streams_vertical datas pars props outs mem junk H = .ok (v, o, H')) :
    o = outs ∧ ∀ sel, E.base.selectFragments (datas.map Option.isSome) (pars.map Option.isSome) mem = .ok sel → (v = true ↔ sel ≠ .tooFew) := by
  have hb : E.buf_size = 0 := by unfold FecV.buf_size; rw [hz, Nat.zero_mul]
  unfold FecV.decode_streams_vertical at h
  simp only at h
  have h : (E.base.selectFragments (datas.map Option.isSome) (pars.map Option.isSome) mem >>= fun sel => (match sel with
      | .allData => pure (true, outs, H)
      | .tooFew => pure (false, outs, H)
      | .use ids apar nd => do
        let ids := (ids.toList.mergeSort (fun x y => decide (x ≤ y))).toArray
        let (H, words) := Bufs.full junk H E.base.n_data E.base.pkt_size
        let (H, output) := Bufs.full junk H E.base.n_data E.base.pkt_size
        let (H, C, props) ← E.init_context_dec ids props E.base.pkt_size output mem junk H
        let (outs, H) ← E.decLoop words output ids apar nd props (maxLen datas + maxLen pars + 2) datas pars outs E.buf_size 0
          ⟨C, H, freshChars junk E.base.n_data E.buf_size, freshChars junk E.base.n_data E.buf_size⟩
        pure (true, outs, H) : Res _)) = .ok (v, o, H') := by
    by_cases hs : E.base.sys = true
    · rw [if_pos hs] at h
      obtain ⟨_, _, h⟩ := bind_ok h
      obtain ⟨_, _, h⟩ := bind_ok h
      obtain ⟨_, _, h⟩ := bind_ok h
      obtain ⟨_, _, h⟩ := bind_ok h
      exact h
    · rw [if_neg hs] at h
      obtain ⟨_, _, h⟩ := bind_ok h
      obtain ⟨_, _, h⟩ := bind_ok h
      obtain ⟨_, _, h⟩ := bind_ok h
      exact h
  obtain ⟨sel, es, h⟩ := bind_ok h
  rw [es]
  cases sel with
  | allData => cases h; exact ⟨rfl, fun sel e => by cases e; simp⟩
  | tooFew => cases h; exact ⟨rfl, fun sel e => by cases e; simp⟩
  | use ids apar nd =>
    simp only [hb] at h
    obtain ⟨⟨H1, C, pp⟩, _, h⟩ := bind_ok h
    obtain ⟨⟨o1, H2⟩, e, h⟩ := bind_ok h
    have := decLoop_zero hz e
    cases h
    exact ⟨this, fun sel e => by cases e; simp⟩

/-- The constructor accepts packets of no words for every code of the Fermat class; encoding then writes empty fragments, whatever the data.  So
the fragments do depend on the packet size: with any other they have the length of the data (C36_streams_unique_partial). -/
theorem C36_zero_packets_fermat {c : FntCode} (hc : c.Ok) {data : Array (List Nat)} {T : Nat} (hd : c.Data data T) :
    ∃ R H, c.New 0 R H ∧ ∀ junk, ∃ H', (R.fecV c.b).encode_streams_vertical R.enc_context data (Array.replicate c.nOut []) (Array.replicate c.nOut .empty) junk H
      = .ok (Array.replicate c.nOut (some []), Array.replicate c.nOut .empty, R.enc_context, H') := by
  obtain ⟨p, n, _, g, r⟩ := FntCode.exists_root hc
  obtain ⟨H0, R0, e0, _⟩ := r.new none (by simp [FntCode.Builds]) 0 (fun _ => 0) (fun _ _ => 0) #[]
  have hn0 : c.New 0 R0 H0 := ⟨none, by simp [FntCode.Builds], _, _, _, e0⟩
  have hi := hn0.inv r
  refine ⟨R0, H0, hn0, fun junk => ?_⟩
  obtain ⟨H', e⟩ := C36_zero_packets_streams (E := R0.fecV c.b) hi.pkt (enc := R0.enc_context) (data := data) (outs := Array.replicate c.nOut [])
    (props := Array.replicate c.nOut .empty) (hd.size.trans hi.k.symm) (by rw [Array.size_replicate]; exact hi.out.symm)
    (by rw [Array.size_replicate]; exact hi.out.symm) junk H0
  refine ⟨H', e.trans ?_⟩
  simp [Properties.clear, Properties.empty]

/-- a code and data for the theorem above -/
example : ∃ (c : FntCode) (data : Array (List Nat)), c.Ok ∧ c.Data data 2 ∧ c.nOut = 3 :=
  ⟨⟨64, 128, 1, 2, 3, true⟩, #[[1, 2], [3, 4]], by constructor <;> decide, by constructor <;> decide, by decide⟩

end Quad.Props
