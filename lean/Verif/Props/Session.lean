import Verif.Props.FecNf4Vert
import Verif.Props.FecGf2n

/-!
# Several encodings and decodings at once on one object (C52)

`Session.run E acts st` (Model/Session.lean) runs a program that begins encodings and decodings on the object `E` and does packets of
them in any order.  What each packet must give is `Spec.expected` (Spec/Session.lean): what it would give alone.
-/

namespace Quad.Props
open Quad Quad.Spec

/-- C52 for the Fermat-number codes: on any object in any state it can get into, a program may begin any number of encodings of any data and of
decodings from any `n_data` fragments of any data, and do their packets in any order.  Each packet gives what it would give if nothing else went
on: packet `j` of each fragment with its properties so far, or packet `j` of the data.  The object can be used on afterwards. -/
theorem C52_interleaved_partial {c : FntCode} (hc : c.Ok) {pkt : Nat} (hpkt : 0 < pkt) {R : RsFntObj} {C : CtxB} {H : Heap} (hr : c.Reachable pkt R C H)
    {l : List Step} (hv : ValidSteps c.TaskOk 0 l) :
    ∃ C' H' run, Session.run (R.fecV c.b) (l.map (Step.act c.sys c.k)) ⟨C, H, #[]⟩ = .ok (⟨C', H', run⟩, expected pkt c.w #[] l) ∧
      c.Reachable pkt R C' H' := by
  obtain ⟨p, n, _, g, r⟩ := FntCode.exists_root hc
  obtain ⟨H', run, e, _⟩ := (hr.inv hpkt r).sessions r hv
  exact ⟨C, H', run, e, hr.sessions hv e⟩

/-- the packets of a stream one after another are the stream, completed with zeros -/
theorem C52_packets_join {size : Nat} (hs : 0 < size) (s : List Nat) (n : Nat) (h : s.length ≤ n * size) :
    ((List.range n).map (fun j => (packet size s j).toList)).flatten = s ++ List.replicate (n * size - s.length) 0 := by
  have key : ∀ n, ((List.range n).map (fun j => (packet size s j).toList)).flatten = List.ofFn (fun i : Fin (n * size) => s.getD i 0) := by
    intro n
    induction n with
    | zero => simp
    | succ n ih =>
      rw [List.range_succ, List.map_append, List.flatten_append, ih]
      apply List.ext_getElem
      · simp [packet, Nat.succ_mul]
      · intro i h1 h2
        rw [List.getElem_append]
        split
        · simp
        · rename_i h3
          simp at h3
          simp only [List.map_cons, List.map_nil, List.flatten_cons, List.flatten_nil, List.append_nil, packet, List.length_ofFn,
            Array.toList_ofFn, List.getElem_ofFn]
          congr 1
          omega
  rw [key]
  apply List.ext_getElem
  · simp; omega
  · intro i h1 h2
    rw [List.getElem_append]
    simp only [List.getElem_ofFn]
    split
    · rename_i h3
      rw [List.getD_eq_getElem _ _ h3]
    · rename_i h3
      rw [List.getD_eq_default _ _ (by omega)]
      simp

/-- the fragments and properties that an object of the packed code writes, in any build and with any packet size -/
def Nf4Encoded (w k m : Nat) (data frags : Array (List Nat)) (fprops : Array Properties) : Prop :=
  ∃ (b : Nat) (reg : Option Nat) (hi : Nat → Nat) (pkt : Nat) (mem : Nat → Nat) (R : RsNf4Obj) (enc enc' : CtxB) (junk : Nat → Nat → Nat)
    (H H' : Heap), Nf4Reg reg ∧ Nf4Build b (w / 2) (RsNf4Obj.nf4Simd b reg hi) ∧ 0 < pkt ∧ RsNf4Obj.mk' b reg hi w k m pkt mem = .ok R ∧
      (R.fecV b).encode_streams_vertical enc data (Array.replicate (k + m) []) (Array.replicate (k + m) .empty) junk H =
        .ok (frags.map some, fprops, enc', H')

/-- C52 for the packed code -/
theorem C52_packed_partial {b w k m pkt : Nat} {reg : Option Nat} {hi : Nat → Nat} (hw : w = 2 ∨ w = 4 ∨ w = 8) (hreg : Nf4Reg reg)
    (hB : Nf4Build b (w / 2) (RsNf4Obj.nf4Simd b reg hi)) (hk : 0 < k) (hm : 0 < m) (hlen : k + m ≤ 65536) (htwo : 2 * k ≤ 65536)
    (hpkt : 0 < pkt) (mem : Nat → Nat) :
    ∃ R, RsNf4Obj.mk' b reg hi w k m pkt mem = .ok R ∧ ∀ (C : CtxB) (H : Heap) {l : List Step},
      ValidSteps (Task.Ok false k m (k + m) (fun data frags fprops => ∃ T, StreamData w k data T ∧ Nf4Encoded w k m data frags fprops)) 0 l →
      ∃ C' H' run, Session.run (R.fecV b) (l.map (Step.act false k)) ⟨C, H, #[]⟩ = .ok (⟨C', H', run⟩, expected pkt w #[] l) := by
  obtain ⟨n, g, hg, hn, hall⟩ := RsNf4Obj.mk'_spec hk hm hlen
  have hcode : ∀ {data frags : Array (List Nat)} {fprops : Array Properties} {T : Nat}, StreamData w k data T →
      Nf4Encoded w k m data frags fprops → CodeOf w k (k + m) (RsNf4Obj.cstored (w / 2) g) (RsNf4Obj.cmark (w / 2) g) data T frags fprops := by
    rintro data frags fprops T hd ⟨b', reg', hi', pkt', mem', R', enc, enc', junk, H, H', h1, h2, h3, h4, h5⟩
    obtain ⟨fr, fp, hI⟩ := CodeOf.exists w k (k + m) (RsNf4Obj.cstored (w / 2) g) (RsNf4Obj.cmark (w / 2) g) data T
    obtain ⟨R, e, _, e1, e2, S, n', l2, g2, o1, o2, o3, G⟩ := hall (pkt := pkt') (hi := hi') h1 ⟨hw, h2, hk, hm, hlen, htwo⟩ mem'
    rw [h4] at e
    cases e
    have hV := RsNf4Obj.vspec (b := b') G
    rw [RsNf4Obj.stored_eq G.good.H, RsNf4Obj.markOf_eq G.good.H] at hV
    have hP := PacketCode.of hV (by show 0 < R'.code.base.pkt_size; omega) G.good.sys e1 G.good.n_data G.good.n_outputs hd hI
    obtain ⟨o, c', Hx, ee, s, ho⟩ := hP.encode enc (Array.replicate (k + m) []) (Array.replicate (k + m) .empty) junk H (by simp) (by simp)
    rw [h5] at ee
    simp only [Except.ok.injEq, Prod.mk.injEq] at ee
    obtain ⟨rfl, rfl, _, _⟩ := ee
    rw [Array.size_map] at s
    have : frags = fr := by
      refine gt_ext (by rw [s, hI.fsize]) (fun i hi => ?_)
      have h6 := ho i (by omega)
      rw [gt_map hi, gt_replicate (by omega), List.nil_append] at h6
      exact Option.some.inj h6
    rw [this]
    exact hI
  obtain ⟨R, e, _, e1, e2, S, n', l2, g2, o1, o2, o3, G⟩ := hall (pkt := pkt) (hi := hi) hreg ⟨hw, hB, hk, hm, hlen, htwo⟩ mem
  have hV := RsNf4Obj.vspec (b := b) G
  rw [RsNf4Obj.stored_eq G.good.H, RsNf4Obj.markOf_eq G.good.H] at hV
  have ek : (R.fecV b).base.n_data = k := G.good.n_data
  have ew : (R.fecV b).base.word_size = w := e1
  have eo : (R.fecV b).base.n_outputs = k + m := G.good.n_outputs
  have es : (R.fecV b).base.sys = false := G.good.sys
  have ep : (R.fecV b).base.pkt_size = pkt := e2
  refine ⟨R, e, fun C H {l} hv => ?_⟩
  have hco : ∀ {data frags : Array (List Nat)} {fprops : Array Properties}, (∃ T, StreamData w k data T ∧ Nf4Encoded w k m data frags fprops) →
      ∃ T, FecV.Coded (R.fecV b) (RsNf4Obj.cstored (w / 2) g) (RsNf4Obj.cmark (w / 2) g) data T frags fprops := by
    rintro data frags fprops ⟨T, hd, he⟩
    refine ⟨T, by rw [ek]; exact hd.size, by rw [ek]; exact hd.bytes, by rw [ek, ew]; exact hd.len, ?_⟩
    rw [ek, ew, eo]
    exact hcode hd he
  obtain ⟨H', run, er, _⟩ := FecV.run_spec hV (C0 := C) l (N := l.length) (H := H) (run := #[]) (a := #[]) le_rfl
    ⟨trivial, rfl, fun _ _ => False, fun i hi => by simp at hi, fun i j b hi => by simp at hi⟩ (hv.imp (fun t ht => by
      cases t with
      | enc data frags fprops => exact hco ht
      | dec data frags fprops props ids =>
        obtain ⟨h1, h2, h3, h4, h5, h6⟩ := ht
        refine ⟨hco h1, ?_, by rw [eo]; exact h5, by rw [ek, eo, es]; exact h6⟩
        rw [ek, es, eo]
        exact ⟨h2, h3, h4⟩))
  rw [ek, es, ep, ew] at er
  exact ⟨C, H', run, er⟩

/-- C52 fails for the matrix codes: what a decoding needs to know of its fragments is kept in the object, and `init_context_dec` gives a null
pointer.  Here a program prepares a decoding from the data fragments in order, which gives the data back, and then another one from
the same fragments with the first two exchanged.  The words of the first decoding are from then on decoded wrongly, without an
error. -/
theorem C52_matrix_codes_mix_up {b w k m : Nat} (h : Gf2nParams b w k m) (hk : 2 ≤ k) (type : RsGf2n.MatType) (mem mem1 mem2 : Nat → Nat)
    (junk : Nat → Nat → Nat) (junk3 : Nat → Nat → Nat → Nat) :
    ∃ O O1 O2, RsGf2n.mkObj b w k m type mem junk junk3 = .ok O ∧ O.prepare (Array.range k) mem1 = .ok O1 ∧
      O1.prepare (Array.ofFn (fun i : Fin k => if i.1 = 0 then 1 else if i.1 = 1 then 0 else i.1)) mem2 = .ok O2 ∧
      ∀ (data out : Array Nat), data.size = k → (∀ i, i < k → gt data i < 2 ^ (8 * w)) → out.size = k → O1.decode out data = .ok data ∧
        O2.decode out data = .ok (Array.ofFn (fun i : Fin k => if i.1 = 0 then gt data 1 else if i.1 = 1 then gt data 0 else gt data i)) := by
  obtain ⟨hws, hw16⟩ := Gf2nRec.gf2n_wordSize h
  haveI := fact_of (size_of h.field.size)
  obtain ⟨O, B, mat, f, e, i1, v1, hu, _⟩ := RsGf2n.mkObj_spec h.field hw16 h.hk h.len type mem junk junk3
  have hr : ∀ i, i < k → gt (Array.range k) i = i := fun i hi => by simp [gt, hi]
  have hA : ValidIds k (k + m) (Array.range k) := ⟨by simp, fun i j hi hj e => by rwa [hr i hi, hr j hj] at e, fun i hi => by rw [hr i hi]; omega⟩
  set sw := Array.ofFn (fun i : Fin k => if i.1 = 0 then 1 else if i.1 = 1 then 0 else i.1) with hsw
  have hs : ∀ i, i < k → gt sw i = if i = 0 then 1 else if i = 1 then 0 else i := fun i hi => by rw [hsw, gt_ofFn hi]
  have hBv : ValidIds k (k + m) sw := by
    refine ⟨by simp [hsw], fun i j hi hj e => ?_, fun i hi => ?_⟩
    · rw [hs i hi, hs j hj] at e
      split at e <;> split at e <;> (try split at e) <;> (try split at e) <;> omega
    · rw [hs i hi]
      split
      · omega
      · split <;> omega
  have okA := hu _ hA (.inr (.inl ⟨0, by omega, hr 0 (by omega)⟩))
  have okB := hu _ hBv (.inr (.inl ⟨1, by omega, by rw [hs 1 (by omega)]; rfl⟩))
  obtain ⟨D1, g1, e1, p1, p2, p3⟩ := RsGf2n.prepare_spec B.full i1 v1 (Mat.mk'_is k k mem) hA okA mem1
  obtain ⟨D2, g2, e2, q1, q2, q3⟩ := RsGf2n.prepare_spec B.full i1 v1 p1 hBv okB mem2
  refine ⟨_, _, _, e, e1, e2, fun data out hd hV ho => ?_⟩
  have hval : ∀ i, i < k → B.sim.V (gt data i) := hV
  have hw1 : ∀ {a ids : Array Nat}, ValidIds k (k + m) ids → a.size = k → (∀ j, j < k → B.sim.V (gt a j)) → (∀ i, i < k → gt ids i < k) →
      (∀ i, i < k → gt data i = gt a (gt ids i)) →
      ∀ i, i < k → B.sim.V (gt data i) ∧ B.sim.φ (gt data i) = ∑ j ∈ Finset.range k, B.sim.φ (Mat.pick k f (gt ids) i j) * B.sim.φ (gt a j) := by
    intro a ids hi ha hav hlt heq i hik
    have := RsGf2n.words_eq B.full h.hk i1 v1 ha hav hi hik
    unfold fragVal at this
    simp only [if_true, hlt i hik, if_true] at this
    rwa [← heq i hik] at this
  refine ⟨RsGf2n.inverse_mul B.full h.hk p1 p2 okA p3 hd hval ho hd
    (hw1 hA hd hval (fun i hi => by rw [hr i hi]; exact hi) (fun i hi => by rw [hr i hi])), ?_⟩
  set a := Array.ofFn (fun i : Fin k => if i.1 = 0 then gt data 1 else if i.1 = 1 then gt data 0 else gt data i) with ha
  have hga : ∀ i, i < k → gt a i = if i = 0 then gt data 1 else if i = 1 then gt data 0 else gt data i := fun i hi => by rw [ha, gt_ofFn hi]
  refine RsGf2n.inverse_mul B.full h.hk q1 q2 okB q3 (by simp [ha]) ?_ ho hd (hw1 hBv (by simp [ha]) ?_ ?_ ?_)
  · intro j hj
    rw [hga j hj]
    split
    · exact hval 1 (by omega)
    · split
      · exact hval 0 (by omega)
      · exact hval j hj
  · intro j hj
    rw [hga j hj]
    split
    · exact hval 1 (by omega)
    · split
      · exact hval 0 (by omega)
      · exact hval j hj
  · intro i hi
    rw [hs i hi]
    split
    · omega
    · split <;> omega
  · intro i hi
    rw [hs i hi]
    by_cases h0 : i = 0
    · subst h0
      rw [if_pos rfl, hga 1 (by omega)]
      simp
    · by_cases h1 : i = 1
      · subst h1
        rw [if_neg h0, if_pos rfl, hga 0 (by omega)]
        simp
      · rw [if_neg h0, if_neg h1, hga i hi, if_neg h0, if_neg h1]

/-! ### the hypotheses are met -/

/-- An encoding and two decodings at once: `data1` is encoded and decoded from fragments 4, 0, 3, other data is decoded from its data fragments in
another order; their packets alternate. -/
example : ∃ frags fprops frags' fprops', ValidSteps code1.TaskOk 0
    [.start (.enc data1 frags fprops) (fun _ => 0) (fun _ _ => 7), .start (.dec data1 frags fprops fprops #[4, 0, 3]) (fun _ => 1) (fun _ _ => 0),
     .next 0 (fun _ _ => 0), .next 1 (fun _ _ => 0),
     .start (.dec #[[1], [2], [3]] frags' fprops' #[.empty, .empty] #[2, 1, 0]) (fun _ => 1) (fun _ _ => 0),
     .next 1 (fun _ _ => 1), .next 2 (fun _ _ => 9), .next 0 (fun _ _ => 0), .next 2 (fun _ _ => 0)] := by
  obtain ⟨fr, fp, s1, s2, _, h, _⟩ := C36_streams_unique_partial code1_ok data1_ok
  have hd : code1.Data #[[1], [2], [3]] 1 := ⟨rfl, by decide, by decide⟩
  obtain ⟨fr', fp', _, _, _, h', _⟩ := C36_streams_unique_partial code1_ok hd
  have he : ∃ T, code1.Data data1 T ∧ code1.Encoded data1 fr fp := ⟨4, data1_ok, (h fr fp).mpr ⟨rfl, rfl⟩⟩
  have he' : ∃ T, code1.Data #[[1], [2], [3]] T ∧ code1.Encoded #[[1], [2], [3]] fr' fp' := ⟨1, hd, (h' fr' fp').mpr ⟨rfl, rfl⟩⟩
  have hk : code1.k = 3 := rfl
  have inj : ∀ {ids : Array Nat}, (∀ i, i < 3 → ∀ j, j < 3 → gt ids i = gt ids j → i = j) → ∀ i j, i < code1.k → j < code1.k → gt ids i = gt ids j → i = j :=
    fun h i j hi hj => h i hi j hj
  refine ⟨fr, fp, fr', fp', he, ⟨he, rfl, inj (by decide), by decide, s2, fun _ _ _ _ _ => rfl⟩, by omega, by omega,
    ⟨he', rfl, inj (by decide), by decide, rfl, fun i f hi hf hh => ?_⟩, by omega, by omega, by omega, by omega, trivial⟩
  exfalso
  have : gt #[2, 1, 0] i = 3 + f := hh
  have hi3 : i < 3 := hi
  interval_cases i <;> simp [gt] at this <;> omega

/-- what the packets of that program give, with packets of two words -/
example (frags : Array (List Nat)) (fprops : Array Properties) :
    expected 2 1 #[] [.start (.enc data1 frags fprops) (fun _ => 0) (fun _ _ => 7),
      .start (.dec data1 frags fprops fprops #[4, 0, 3]) (fun _ => 1) (fun _ _ => 0), .next 1 (fun _ _ => 0), .next 0 (fun _ _ => 0), .next 1 (fun _ _ => 0)] =
    [⟨1, #[#[1, 2], #[5, 6], #[9, 10]], #[]⟩, ⟨0, frags.map (fun s => #[s.getD 0 0, s.getD 1 0]), fprops.map (upTo 2)⟩,
     ⟨1, #[#[3, 4], #[7, 255], #[11, 12]], #[]⟩] := by
  simp [expected, Task.event, gt, data1, packet, Array.ofFn_succ]

example : Gf2nParams 32 1 2 1 := ⟨by decide, ⟨by decide, by decide, by decide, by decide⟩, by decide, by decide⟩

end Quad.Props
