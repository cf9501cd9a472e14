import Verif.Lemmas.NoPackets
import Verif.Props.FecVert

/-!
# C49: the packet functions of the codes that have none

`RsGf2n`, `RsGf2nFft`, `RsGf2nFftAdd` and `RsGfpFft` do not define `encode` on packets.  The function of the base class they inherit has
an empty body, so `encode_streams_vertical` and `encode_blocks_vertical` of these codes return normally and write to the fragments what
happened to be in memory.
-/

namespace Quad.Props
open Quad Spec

/-- C49 fails for every code that keeps the empty `encode(Buffers)` of the base class: the fragments are the same whatever the data,
and nothing is refused. -/
theorem C49_packets_lose_data {E : FecV} (hE : E.encode = FecV.defaultEncode) (hw : E.base.word_size ∈ [1, 2, 4, 8, 16])
    (hb : 8 * E.base.word_size ≤ E.b) (hk : 0 < E.base.n_data) (hpkt : 0 < E.base.pkt_size) (hout : E.base.n_outputs ≤ E.get_n_outputs)
    (enc : CtxB) (outs : Array (List Nat)) (props : Array Properties) (junk : Nat → Nat → Nat) (H : Heap)
    (h2 : outs.size = E.base.n_outputs) (h3 : props.size = E.base.n_outputs) (L : Nat) :
    ∃ frags fprops, ∀ data : Array (List Nat), data.size = E.base.n_data → (∀ i, i < E.base.n_data → (gt data i).length = L) →
      ∃ enc' H', E.encode_streams_vertical enc data outs props junk H = .ok (frags, fprops, enc', H') := by
  have hw' : WordSize E.base.word_size := by simp at hw; exact hw
  obtain ⟨H1, wm, e1, s1, g1, z1, x1, ok1, in1⟩ := Bufs.full_spec junk H E.base.n_data E.base.pkt_size
  obtain ⟨H2, om, e2, s2, g2, z2, x2, ok2, in2⟩ := Bufs.full_spec junk H1 E.get_n_outputs E.base.pkt_size
  have hio : FecV.Idle E wm om (fun f c => el H2 (gt om f) c) H2 := by
    refine ⟨s1, s2, in1.append in2 ?_, (ok1.ext x2).append ok2, fun _ _ _ => rfl⟩
    intro i j hi hj
    rw [g1 i (by omega), g2 j (by omega)]; omega
  obtain ⟨wz, wg⟩ := freshChars_spec junk E.base.n_data E.buf_size
  obtain ⟨oz, og⟩ := freshChars_spec junk E.get_n_outputs E.buf_size
  refine ⟨Array.ofFn fun f : Fin E.base.n_outputs => some (gt outs f ++
    (FecV.idle E.base.word_size E.base.pkt_size (fun c => el H2 (gt om f) c) (L + E.base.pkt_size)).take L),
    props.map Properties.clear, fun data h1 hT => ?_⟩
  obtain ⟨o, s, e, q1, q2, q3⟩ := FecV.idleLoop_spec hE hw' hb hk hpkt hout (D := gt data) (L := L) (O := gt outs) (wm := wm) (om := om) hT
    (d := L) (p := 0) (fuel := (gt data 0).length + 2) (ins := data.map some) (outs := outs.map some)
    (s := ⟨enc, H2, freshChars junk E.base.n_data E.buf_size, freshChars junk E.get_n_outputs E.buf_size, props.map Properties.clear⟩)
    (by omega) (by
      rw [Nat.zero_add]
      exact Nat.le_mul_of_pos_right _ (Nat.mul_pos hpkt hw'.pos)) (by rw [hT 0 hk]; omega) (by simp [h1])
    (fun i hi => by rw [gt_map (by omega)]; simp) (by simp [h2])
    (fun f hf => by rw [gt_map (by omega)]; simp [FecV.idle, flat_zero]) hio wz oz.ge og
  refine ⟨s.enc, s.H, ?_⟩
  have hfr : o = Array.ofFn fun f : Fin E.base.n_outputs => some (gt outs f ++
      (FecV.idle E.base.word_size E.base.pkt_size (fun c => el H2 (gt om f) c) (L + E.base.pkt_size)).take L) := by
    refine gt_ext (by simp [q1]) fun f hf => ?_
    rw [q1] at hf
    rw [q3 f hf, gt_ofFn hf]
  unfold FecV.encode_streams_vertical
  simp only [cassert, h1, h2, h3, decide_true, if_true, ok_bind, e1, e2]
  rw [Nat.zero_mul] at e
  rw [e, ok_bind]
  simp only
  rw [hfr, q2]
  rfl

/-- The same with the caller's blocks of memory: `encode_blocks_vertical` of such a code leaves in the blocks asked for the same bytes
whatever the data, and nothing is refused. -/
theorem C49_blocks_lose_data {E : FecV} (hE : E.encode = FecV.defaultEncode) (hw : E.base.word_size ∈ [1, 2, 4, 8, 16])
    (hb : 8 * E.base.word_size ≤ E.b) (hpkt : 0 < E.base.pkt_size) (hout : E.base.n_outputs ≤ E.get_n_outputs)
    (enc : CtxB) (pars : Array (Option (Array Nat))) (props : Array Properties) (wanted : Array Bool) (bytes : Nat) (junk : Nat → Nat → Nat)
    (H : Heap) (h2 : pars.size = E.base.n_outputs) (h3 : props.size = E.base.n_outputs) (h4 : E.base.n_outputs ≤ wanted.size)
    (h5 : ∀ i, i < E.base.n_outputs → gt wanted i = true → ∃ d, gt pars i = some d ∧ bytes ≤ d.size) :
    ∃ frags fprops, ∀ data : Array (Array Nat), data.size = E.base.n_data → (∀ i, i < E.base.n_data → bytes ≤ (gt data i).size) →
      ∃ enc' H', E.encode_blocks_vertical enc (data.map some) pars props wanted bytes junk H = .ok (frags, fprops, enc', H') := by
  have hw' : WordSize E.base.word_size := by simp at hw; exact hw
  have hle : bytes / E.base.word_size * E.base.word_size ≤ bytes := Nat.div_mul_le_self _ _
  obtain ⟨H1, wm, e1, s1, g1, z1, x1, ok1, in1⟩ := Bufs.full_spec junk H E.base.n_data E.base.pkt_size
  obtain ⟨H2, om, e2, s2, g2, z2, x2, ok2, in2⟩ := Bufs.full_spec junk H1 E.get_n_outputs E.base.pkt_size
  have hio : FecV.Idle E wm om (fun f c => el H2 (gt om f) c) H2 := by
    refine ⟨s1, s2, in1.append in2 ?_, (ok1.ext x2).append ok2, fun _ _ _ => rfl⟩
    intro i j hi hj
    rw [g1 i (by omega), g2 j (by omega)]; omega
  obtain ⟨wz, wg⟩ := freshChars_spec junk E.base.n_data E.buf_size
  obtain ⟨oz, og⟩ := freshChars_spec junk E.get_n_outputs E.buf_size
  refine ⟨Array.ofFn fun f : Fin E.base.n_outputs => Written E.base.word_size wanted (fun f t => el H2 (gt om f) (t % E.base.pkt_size)) pars
    (bytes / E.base.word_size) f, props.map Properties.clear, fun data h1 hT => ?_⟩
  obtain ⟨o, s, e, q1, q2, q3⟩ := FecV.idleBlockLoop_spec hE hw' hb hpkt hout (B := gt data) (T := bytes / E.base.word_size) (wm := wm) (om := om)
    (g := fun f c => el H2 (gt om f) c) (datas := data.map some) (pars0 := pars) (wanted := wanted) (by simp [h1])
    (fun i hi => gt_map (by omega)) (fun i hi => hle.trans (hT i hi)) h4
    (fun i hi h => by obtain ⟨d, h6, h7⟩ := h5 i hi h; exact ⟨d, h6, hle.trans h7⟩)
    (d := bytes / E.base.word_size) (p := 0) (fuel := bytes / E.base.word_size + 1) (pars := pars)
    (s := ⟨enc, H2, freshChars junk E.base.n_data E.buf_size, freshChars junk E.get_n_outputs E.buf_size, props.map Properties.clear⟩)
    (by rw [Nat.zero_add]; exact Nat.le_mul_of_pos_right _ hpkt) (by omega) h2
    (fun f hf => by rw [Nat.zero_mul, Nat.zero_min, written_zero]) hio wz wg oz.ge og
  refine ⟨s.enc, s.H, ?_⟩
  have hfr : o = Array.ofFn fun f : Fin E.base.n_outputs => Written E.base.word_size wanted
      (fun f t => el H2 (gt om f) (t % E.base.pkt_size)) pars (bytes / E.base.word_size) f := by
    refine gt_ext (by simp [q1]) fun f hf => ?_
    rw [q1] at hf
    rw [q3 f hf, gt_ofFn hf]
  unfold FecV.encode_blocks_vertical
  simp only [cassert, Array.size_map, h1, h2, h3, decide_true, if_true, ok_bind, e1, e2]
  rw [Nat.zero_mul] at e
  rw [e, ok_bind]
  simp only
  rw [hfr, q2]
  rfl

/-- C49 for the Fermat-number codes: what they write in packets determines the data.  Missing: the codes of
`C49_packets_lose_data`. -/
theorem C49_fnt_partial {c : FntCode} (hc : c.Ok) (hs : c.sys = false) {data data' frags : Array (List Nat)} {fprops : Array Properties} {T T' : Nat}
    (hd : c.Data data T) (hd' : c.Data data' T') (he : c.Encoded data frags fprops) (he' : c.Encoded data' frags fprops) : data = data' := by
  obtain ⟨H, R, e⟩ := C23_new hc (simd := none) (by simp [FntCode.Builds]) 1 (fun _ => 0) (fun _ _ => 0) #[]
  have hr : c.Reachable 1 R _ H := .new ⟨none, by simp [FntCode.Builds], _, _, _, e⟩
  obtain ⟨fr, fp, s1, s2, _, u, _⟩ := C36_streams_unique_partial hc hd
  obtain ⟨rfl, rfl⟩ := (u _ _).mp he
  have hsv : ∀ {d : Array (List Nat)}, c.Surviving d frags fprops #[] (frags.map some) fprops := by
    intro d
    refine ⟨fun h => (by rw [hs] at h; cases h), by simp [s1], s2, fun h => (by rw [hs] at h; cases h), fun f s hf h => ⟨?_, rfl⟩⟩
    rw [gt_map (by omega)] at h
    exact (Option.some.inj h).symm
  have hav : c.k ≤ (if c.sys then avail #[] else 0) + avail (frags.map some) := by
    have : avail (frags.map some) = frags.size := by
      unfold avail
      rw [Array.toList_map, List.countP_map, List.countP_eq_length.mpr (by simp)]
      simp
    rw [this, s1]
    unfold FntCode.nOut
    rw [hs]
    simp
  have hl : c.sys = true → avail #[] < c.k := fun h => by rw [hs] at h; cases h
  obtain ⟨o, H1, e1, z1, q1, _⟩ := C23_streams hc hd he (by omega) hr (outs := Array.replicate c.k (some [])) hsv (fun _ => 0) (fun _ _ => 0)
    (by simp) hl hav
  obtain ⟨o', H2, e2, z2, q2, _⟩ := C23_streams hc hd' he' (by omega) hr (outs := Array.replicate c.k (some [])) hsv (fun _ => 0) (fun _ _ => 0)
    (by simp) hl hav
  rw [e1] at e2
  cases e2
  refine gt_ext (by rw [hd.size, hd'.size]) (fun i hi => ?_)
  rw [hd.size] at hi
  have h1 := q1 i hi
  have h2 := q2 i hi
  rw [gt_replicate hi] at h1 h2
  rw [h1] at h2
  simpa using h2

/-- a code of two data and one parity fragments with one-byte words in `uint32_t` and packets of 8 words -/
example (B : FecBase) : ∃ E : FecV, E.encode = FecV.defaultEncode ∧ E.base.word_size ∈ [1, 2, 4, 8, 16] ∧ 8 * E.base.word_size ≤ E.b ∧
    0 < E.base.n_data ∧ 0 < E.base.pkt_size ∧ E.base.n_outputs ≤ E.get_n_outputs :=
  ⟨{ base := { B with word_size := 1, n_data := 2, n_parities := 1, n_outputs := 1, pkt_size := 8 }, b := 32,
     get_n_outputs := 1, encode := FecV.defaultEncode, init_context_dec := fun _ _ _ _ _ _ _ => ub, decode := fun _ _ _ _ _ _ => ub },
    rfl, by simp, by simp, by simp, by simp, by simp⟩

/-- one parity block of four bytes, asked for -/
example : ∃ (pars : Array (Option (Array Nat))) (wanted : Array Bool), pars.size = 1 ∧ 1 ≤ wanted.size ∧
    ∀ i, i < 1 → gt wanted i = true → ∃ d, gt pars i = some d ∧ 4 ≤ d.size :=
  ⟨#[some #[9, 9, 9, 9]], #[true], rfl, by simp, fun i hi _ => ⟨#[9, 9, 9, 9], by
    obtain rfl : i = 0 := by omega
    rfl, by simp⟩⟩

end Quad.Props
