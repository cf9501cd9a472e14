import Verif.Lemmas.FntCode

/-!
# Fermat-number codes in packets: streams and blocks (C23, C24, C25, C26, C36)

The vocabulary is in Spec/Fnt.lean.  `c.Reachable pkt R C H` quantifies over every
history of a code object with packet size `pkt`: built by the constructor with any contents of
uninitialised memory, then used any number of times.  Fragments may come from
another object with another packet size (`c.Encoded`).
-/

namespace Quad.Props
open Quad Spec Polynomial

theorem leVal_ofDigits (l : List Nat) : leVal l = Nat.ofDigits 256 l := by
  induction l with
  | nil => rfl
  | cons x l ih => rw [Nat.ofDigits_cons, ← ih]; rfl

theorem wordAt_word (w : Nat) (s : List Nat) (t : Nat) : wordAt w s t = word w s t := leVal_ofDigits _

/-- The constructor succeeds for every configuration, build, packet size and contents of
uninitialised memory. -/
theorem C23_new {c : FntCode} (hc : c.Ok) {simd : Option Nat} (hs : c.Builds simd) (pkt : Nat) (mem : Nat → Nat) (junk : Nat → Nat → Nat) (H : Heap) :
    ∃ H' R, RsFntObj.mk' (.of simd c.b) c.b c.db c.sys c.w c.k c.m pkt mem junk H = .ok (H', R) := by
  obtain ⟨p, n, _, g, r⟩ := FntCode.exists_root hc
  obtain ⟨H', R, e, _⟩ := r.new simd hs pkt mem junk H
  exact ⟨H', R, e⟩

/-- Every data has an encoding, and it is unique: what an object writes does not depend on its packet
size (C36), its history, the build, scalar or vectorised, or uninitialised memory. -/
theorem C36_streams_unique_partial {c : FntCode} (hc : c.Ok) {data : Array (List Nat)} {T : Nat} (hd : c.Data data T) :
    ∃ frags fprops, frags.size = c.nOut ∧ fprops.size = c.nOut ∧ (∀ f, f < c.nOut → (gt frags f).length = T * c.w) ∧
      (∀ frags' fprops', c.Encoded data frags' fprops' ↔ frags' = frags ∧ fprops' = fprops) ∧
      ∀ {pkt R C H}, 0 < pkt → c.Reachable pkt R C H → ∀ (outs : Array (List Nat)) (props : Array Properties) (junk : Nat → Nat → Nat),
        outs.size = c.nOut → props.size = c.nOut →
        ∃ o C' H', (R.fecV c.b).encode_streams_vertical C data outs props junk H = .ok (o, fprops, C', H') ∧ o.size = c.nOut ∧
          (∀ f, f < c.nOut → gt o f = some (gt outs f ++ gt frags f)) ∧ c.Reachable pkt R C' H' := by
  obtain ⟨p, n, _, g, r⟩ := FntCode.exists_root hc
  obtain ⟨H0, R0, e0, _⟩ := r.new none (by simp [FntCode.Builds]) 1 (fun _ => 0) (fun _ _ => 0) #[]
  have hn0 : c.New 1 R0 H0 := ⟨none, by simp [FntCode.Builds], _, _, _, e0⟩
  obtain ⟨o, p', e', H', e, _, q2, q3, q4⟩ := (hn0.inv r).encode_streams (by omega) hd (fun _ _ => 0) (outs := Array.replicate c.nOut [])
    (props := Array.replicate c.nOut .empty) (by simp) (by simp)
  have ho : o = (o.map (fun x => x.getD [])).map some := by
    apply gt_ext (by simp)
    intro i hi
    rw [gt_map (by simpa using hi), gt_map hi, (q4 i (by omega)).1]
    rfl
  have hE : c.Encoded data (o.map (fun x => x.getD [])) p' := ⟨1, R0, H0, _, _, _, by omega, hn0, by rw [← ho]; exact e⟩
  have hI := hE.isCode hd r
  refine ⟨o.map (fun x => x.getD []), p', hI.fsize, hI.psize, ?_, ?_, ?_⟩
  · intro f hf
    rw [hI.frag f hf, flat_length]
  · intro fr pr
    constructor
    · intro h
      have h' := h.isCode hd r
      refine ⟨gt_ext (by rw [h'.fsize, hI.fsize]) (fun i hi => ?_), gt_ext (by rw [h'.psize, hI.psize]) (fun i hi => ?_)⟩
      · rw [h'.fsize] at hi
        rw [h'.frag i hi, hI.frag i hi]
      · rw [h'.psize] at hi
        rw [h'.prop i hi, hI.prop i hi]
    · rintro ⟨rfl, rfl⟩
      exact hE
  · intro pkt R C H hpkt hr outs props junk h1 h2
    obtain ⟨o', pp, C', H'', e', _, s2, s3, s4⟩ := (hr.inv hpkt r).encode_streams hpkt hd junk h1 h2
    have hpp : pp = p' := gt_ext (by omega) (fun i hi => by rw [(s4 i (by omega)).2, hI.prop i (by omega)])
    rw [hpp] at e'
    refine ⟨o', C', H'', e', s2, fun f hf => ?_, hr.encode hd.toBytes e'⟩
    rw [(s4 f hf).1, hI.frag f hf]

/-- C36: with streams coded word by word, the fragments and the properties are the same as in packets (non-systematic mode). -/
theorem C36_horizontal {c : FntCode} (hc : c.Ok) (hs : c.sys = false) {data frags : Array (List Nat)} {fprops : Array Properties} {T : Nat}
    (hd : c.Data data T) (he : c.Encoded data frags fprops) (pkt : Nat) (mem mem' : Nat → Nat) :
    ∃ B, RsFnt.mkBase c.b c.db c.sys c.w c.k c.m pkt mem = .ok B ∧
      (RsFnt.fec B).encode_streams_horizontal data (Array.replicate c.nOut []) (Array.replicate c.nOut .empty) mem' = .ok (frags, fprops) := by
  obtain ⟨p, n, _, g, r⟩ := FntCode.exists_root hc
  have hI := he.isCode hd r
  obtain ⟨B, eB, hw, hk, ho, hH⟩ := r.horiz hs pkt mem
  have hk0 := hc.hk
  have hw0 : 0 < c.w := by rcases hc.hw with h | h <;> omega
  obtain ⟨o, pp, e, s1, s2, s3⟩ := Fec.encode_streams_horizontal_spec hH (data := data) (outs := Array.replicate c.nOut [])
    (props := Array.replicate c.nOut .empty) mem' (T := T) (by show _ = B.n_data; rw [hk]; exact hd.size) (by show _ = B.n_outputs; simp [ho])
    (by show _ = B.n_outputs; simp [ho]) (by show ∀ i, i < B.n_data → _; rw [hk]; exact hd.bytes)
    (by
      show Rows B.word_size B.n_data _ _
      rw [hw, hk]
      exact ⟨fun i hi => (hd.len i hi).ge, 0, hk0, by rw [hd.len 0 hk0, Nat.succ_mul]; omega⟩)
  change o.size = B.n_outputs at s1
  change pp.size = B.n_outputs at s2
  change ∀ f, f < B.n_outputs → _ = _ ++ flat B.word_size (fun t => FntCode.stored g c.w c.sys c.k (rowAt B.word_size B.n_data _ _) _) _ ∧
    _ = (⟨marksOf (fun t => FntCode.mark g c.w c.sys c.k (rowAt B.word_size B.n_data _ _) _) _⟩ : Properties) at s3
  rw [ho, hw, hk] at s3
  refine ⟨B, eB, ?_⟩
  rw [e]
  congr 2
  · refine gt_ext (by rw [s1, hI.fsize, ho]) (fun i hi => ?_)
    rw [s1, ho] at hi
    rw [(s3 i hi).1, gt_replicate hi, List.nil_append, hI.frag i hi]
  · refine gt_ext (by rw [s2, hI.psize, ho]) (fun i hi => ?_)
    rw [s2, ho] at hi
    rw [(s3 i hi).2, hI.prop i hi]

/-- C36: with whole blocks, the wanted parity blocks start with the same fragments as streams, the rest of them and the other blocks are
untouched, and the properties are the same. -/
theorem C36_blocks {c : FntCode} (hc : c.Ok) {data frags : Array (List Nat)} {fprops : Array Properties} {T bytes : Nat}
    (hd : c.Data data T) (he : c.Encoded data frags fprops) (hb : bytes / c.w = T) {pkt : Nat} (hpkt : 0 < pkt) {R : RsFntObj} {C : CtxB}
    {H : Heap} (hr : c.Reachable pkt R C H) {datas pars : Array (Option (Array Nat))} {props : Array Properties} {wanted : Array Bool}
    (junk : Nat → Nat → Nat) (h1 : datas.size = c.k) (hs : ∀ i, i < c.k → StartsWith (gt datas i) (gt data i)) (h2 : pars.size = c.nOut)
    (h3 : props.size = c.nOut) (hw1 : c.nOut ≤ wanted.size)
    (hw2 : ∀ f, f < c.nOut → gt wanted f = true → ∃ d, gt pars f = some d ∧ T * c.w ≤ d.size) :
    ∃ o C' H', (R.fecV c.b).encode_blocks_vertical C datas pars props wanted bytes junk H = .ok (o, fprops, C', H') ∧ o.size = c.nOut ∧
      (∀ f, f < c.nOut → gt o f = if gt wanted f then
          (gt pars f).map (fun d => (gt frags f ++ d.toList.drop (T * c.w)).toArray) else gt pars f) ∧
      c.Reachable pkt R C' H' := by
  obtain ⟨p, n, _, g, r⟩ := FntCode.exists_root hc
  have hI := he.isCode hd r
  obtain ⟨o, pp, C', H', e, _, s2, s3, s4⟩ := (hr.inv hpkt r).encode_blocks hpkt hd hb junk h1 hs h2 h3 hw1 hw2
  have hpp : pp = fprops := gt_ext (by rw [s3, hI.psize]) (fun i hi => by rw [(s4 i (by omega)).2, hI.prop i (by omega)])
  rw [hpp] at e
  refine ⟨o, C', H', e, s2, fun f hf => ?_, hr.encodeBlocks hd hb h1 hs hw1 hw2 e⟩
  rw [(s4 f hf).1, hI.frag f hf]

/-- C23 and C25, streams in packets: from any selection of at least `n_data` fragments, decoding appends every data stream to
its output (a null output is left alone).  In systematic mode the data streams are fragments; if none of them is
missing, nothing is written (`C26_vertical_all_data`). -/
theorem C23_streams {c : FntCode} (hc : c.Ok) {data frags : Array (List Nat)} {fprops : Array Properties} {T : Nat} (hd : c.Data data T)
    (he : c.Encoded data frags fprops) {pkt : Nat} (hpkt : 0 < pkt) {R : RsFntObj} {C : CtxB} {H : Heap} (hr : c.Reachable pkt R C H)
    {datas pars outs : Array (Option (List Nat))} {props : Array Properties} (hs : c.Surviving data frags fprops datas pars props)
    (mem : Nat → Nat) (junk : Nat → Nat → Nat) (ho : outs.size = c.k) (hlost : c.sys = true → avail datas < c.k)
    (henough : c.k ≤ (if c.sys then avail datas else 0) + avail pars) :
    ∃ o H', (R.fecV c.b).decode_streams_vertical datas pars props outs mem junk H = .ok (true, o, H') ∧ o.size = c.k ∧
      (∀ i, i < c.k → gt o i = (gt outs i).map (fun s => s ++ gt data i)) ∧ c.Reachable pkt R C H' := by
  obtain ⟨p, n, _, g, r⟩ := FntCode.exists_root hc
  obtain ⟨v, o, H', e, _, q⟩ := (hr.inv hpkt r).decode_streams hpkt hd (he.isCode hd r) hs mem junk ho
  rw [if_neg (fun h => by have := hlost h.1; omega), if_neg (by omega)] at q
  obtain ⟨rfl, q2, q3⟩ := q
  exact ⟨o, H', e, q2, q3, hr.decode hd he hs e⟩

/-- C23 and C25, whole blocks: from any `n_data` fragments, decoding writes every wanted data block, and only their first `T * w` bytes. -/
theorem C23_blocks {c : FntCode} (hc : c.Ok) {data frags : Array (List Nat)} {fprops : Array Properties} {T bytes : Nat} (hd : c.Data data T)
    (he : c.Encoded data frags fprops) (hb : bytes / c.w = T) {pkt : Nat} (hpkt : 0 < pkt) {R : RsFntObj} {C : CtxB} {H : Heap}
    (hr : c.Reachable pkt R C H) {datas pars : Array (Option (Array Nat))} {props : Array Properties} {missing wanted : Array Bool}
    (hs : c.SurvivingBlocks data frags fprops datas pars props missing) (mem : Nat → Nat) (junk : Nat → Nat → Nat) (hw1 : c.k ≤ wanted.size)
    (hw2 : ∀ i, i < c.k → gt wanted i = true → ∃ d, gt datas i = some d ∧ T * c.w ≤ d.size)
    (hlost : c.sys = true → ∃ i, i < c.k ∧ gt missing i = true) (henough : c.k ≤ missing.toList.count false) :
    ∃ o H', (R.fecV c.b).decode_blocks_vertical datas pars props missing wanted bytes mem junk H = .ok (true, o, H') ∧ o.size = c.k ∧
      (∀ i, i < c.k → gt o i = if gt wanted i then
          (gt datas i).map (fun d => (gt data i ++ d.toList.drop (T * c.w)).toArray) else gt datas i) ∧ c.Reachable pkt R C H' := by
  obtain ⟨p, n, _, g, r⟩ := FntCode.exists_root hc
  obtain ⟨v, o, H', e, _, q⟩ := (hr.inv hpkt r).decode_blocks hpkt hd hb (he.isCode hd r) hs mem junk hw1 hw2
  rw [if_neg (fun h => by
    obtain ⟨i, hi, hi'⟩ := hlost h.1
    rw [h.2 i hi] at hi'; cases hi'), if_neg (by omega)] at q
  obtain ⟨rfl, q2, q3⟩ := q
  exact ⟨o, H', e, q2, q3, hr.decodeBlocks hd hb he hs hw1 hw2 e⟩

theorem root_codeword {c : FntCode} {p n : Nat} [Fact p.Prime] {g : ZMod p} (r : c.Root p n g) {data frags : Array (List Nat)}
    {fprops : Array Properties} {T : Nat} (hd : c.Data data T) (he : c.Encoded data frags fprops) {t : Nat} (ht : t < T) :
    ∃ P : (ZMod p)[X], P.degree < c.k ∧
        (if c.sys then ∀ i, i < c.k → P.eval (g ^ i) = word c.w (gt data i) t else ∀ i, i < c.k → P.coeff i = word c.w (gt data i) t) ∧
        ∀ f, f < c.nOut → P.eval (g ^ (if c.sys then c.k + f else f)) = restored c.w (gt frags f) (gt fprops f) t := by
  have hI := he.isCode hd r
  have hinj := RsFnt.inj_pow (k := c.k) r.root (by have := r.len; omega)
  have hrs : (FntCode.row c data t).size = c.k := by simp [FntCode.row, rowAt]
  have hrow : ∀ i, i < c.k → gt (FntCode.row c data t) i = word c.w (gt data i) t := fun i hi => by
    unfold FntCode.row; rw [rowAt_gt hi, wordAt_word]
  refine ⟨rowPoly g c.sys c.k (FntCode.row c data t), ?_, ?_, ?_⟩
  · unfold rowPoly
    split
    · have := Lagrange.degree_interpolate_lt (s := Finset.range c.k) (v := fun i => g ^ i)
        (fun i => ((gt (FntCode.row c data t) i : Nat) : ZMod p)) hinj
      simpa using this
    · rw [hrs]
      refine lt_of_le_of_lt (degree_sum_le _ _) ((Finset.sup_lt_iff (WithBot.bot_lt_coe _)).mpr fun i hi => ?_)
      exact lt_of_le_of_lt (degree_C_mul_X_pow_le _ _) (by exact_mod_cast Finset.mem_range.mp hi)
  · unfold rowPoly
    by_cases hs : c.sys = true
    · rw [if_pos hs, if_pos hs]
      intro i hi
      rw [Lagrange.eval_interpolate_at_node (v := fun i => g ^ i) _ hinj (Finset.mem_range.mpr hi), hrow i hi]
    · rw [if_neg hs, if_neg hs]
      intro i hi
      rw [finsetSum_coeff, hrs]
      simp only [coeff_C_mul_X_pow]
      rw [Finset.sum_ite_eq, if_pos (Finset.mem_range.mpr hi), hrow i hi]
  · intro f hf
    have hsy : ((symbol g c.sys c.k (FntCode.row c data t) f : Nat) : ZMod p) =
        (rowPoly g c.sys c.k (FntCode.row c data t)).eval (g ^ (if c.sys then c.k + f else f)) := by
      unfold symbol; rw [ZMod.natCast_zmod_val]
    rw [← hsy]
    congr 1
    unfold restored
    have hlt : symbol g c.sys c.k (FntCode.row c data t) f ≤ 2 ^ (8 * c.w) := by
      have := ZMod.val_lt ((rowPoly g c.sys c.k (FntCode.row c data t)).eval (g ^ (if c.sys then c.k + f else f)))
      have h2 := r.ne
      unfold symbol; omega
    have hmem : t ∈ (gt fprops f).props.map Prod.fst ↔ symbol g c.sys c.k (FntCode.row c data t) f = 2 ^ (8 * c.w) := by
      rw [hI.prop f hf, List.mem_map]
      constructor
      · rintro ⟨x, hx, rfl⟩
        have := (mem_marksOf.mp hx).2
        unfold FntCode.mark at this
        by_contra hne
        rw [if_neg hne] at this
        cases this
      · intro h
        exact ⟨(t, OOR_MARK), mem_marksOf.mpr ⟨ht, by unfold FntCode.mark; rw [if_pos h]⟩, rfl⟩
    by_cases h : symbol g c.sys c.k (FntCode.row c data t) f = 2 ^ (8 * c.w)
    · rw [if_pos (hmem.mpr h), h]
    · rw [if_neg (fun hh => h (hmem.mp hh)), hI.frag f hf, ← wordAt_word, wordAt_flat ht (by
        unfold FntCode.stored
        rw [if_neg h, ← two_pow_8]; omega)]
      unfold FntCode.stored
      rw [if_neg h]

/-- C25 (and the code property behind C23): the fragments are the values, at the powers of one root of unity, of one polynomial of degree
less than `n_data` per row.  In systematic mode its values at the first `n_data` points are the data words; otherwise the
data words are its coefficients.  The roots `g^0, g^1, ..` of the fragments are distinct. -/
theorem C25_codeword_partial {c : FntCode} (hc : c.Ok) : ∃ (p n : Nat) (_ : Fact p.Prime) (g : ZMod p), p = 2 ^ (8 * c.w) + 1 ∧ c.k + c.m ≤ n ∧
    IsPrimitiveRoot g n ∧ ∀ {data frags : Array (List Nat)} {fprops : Array Properties} {T : Nat}, c.Data data T → c.Encoded data frags fprops →
      ∀ t, t < T → ∃ P : (ZMod p)[X], P.degree < c.k ∧
        (if c.sys then ∀ i, i < c.k → P.eval (g ^ i) = word c.w (gt data i) t else ∀ i, i < c.k → P.coeff i = word c.w (gt data i) t) ∧
        ∀ f, f < c.nOut → P.eval (g ^ (if c.sys then c.k + f else f)) = restored c.w (gt frags f) (gt fprops f) t := by
  obtain ⟨p, n, hp, g, r⟩ := FntCode.exists_root hc
  exact ⟨p, n, hp, g, r.ne, r.len, r.root, fun hd he t ht => root_codeword r hd he ht⟩

/-- C26: with fewer than `n_data` fragments decoding in packets returns `false` and writes nothing, for every code and whatever the
fragments contain. -/
theorem C26_vertical_too_few (E : FecV) {datas pars outs : Array (Option (List Nat))} {props : Array Properties}
    (mem : Nat → Nat) (junk : Nat → Nat → Nat) (H : Heap) (hk : 0 < E.base.n_data) (hd : datas.size = E.base.n_data)
    (hp : pars.size = E.base.n_outputs) (hq : props.size = E.base.n_outputs) (ho : outs.size = E.base.n_data)
    (hfew : (if E.base.sys then avail datas else 0) + avail pars < E.base.n_data) :
    E.decode_streams_vertical datas pars props outs mem junk H = .ok (false, outs, H) := by
  have hsel := E.base.selectFragments_spec hk (data := datas.map Option.isSome) (parities := pars.map Option.isSome) mem
    (fun _ => by simp [hd]) (by simp [hp])
  have h1 : (E.base.dataList (datas.map Option.isSome)).length = if E.base.sys then avail datas else 0 := by
    unfold FecBase.dataList
    split
    · exact present_eq_avail datas hd
    · rfl
  have h2 : (present (pars.map Option.isSome) E.base.n_outputs).length = avail pars := present_eq_avail pars hp
  rw [h1, h2, if_neg (by omega), if_pos hfew] at hsel
  unfold FecV.decode_streams_vertical
  by_cases hs : E.base.sys = true
  · simp [hs, cassert, hd, hp, hq, ho, hsel, pure, Except.pure]
  · simp [hs, cassert, hp, hq, ho, hsel, pure, Except.pure]

/-- C26: with all data fragments of a systematic code, decoding in packets returns `true` and writes nothing. -/
theorem C26_vertical_all_data (E : FecV) {datas pars outs : Array (Option (List Nat))} {props : Array Properties}
    (mem : Nat → Nat) (junk : Nat → Nat → Nat) (H : Heap) (hk : 0 < E.base.n_data) (hs : E.base.sys = true) (hd : datas.size = E.base.n_data)
    (hp : pars.size = E.base.n_outputs) (hq : props.size = E.base.n_outputs) (ho : outs.size = E.base.n_data)
    (hall : avail datas = E.base.n_data) :
    E.decode_streams_vertical datas pars props outs mem junk H = .ok (true, outs, H) := by
  have hsel := E.base.selectFragments_spec hk (data := datas.map Option.isSome) (parities := pars.map Option.isSome) mem
    (fun _ => by simp [hd]) (by simp [hp])
  have h1 : (E.base.dataList (datas.map Option.isSome)).length = E.base.n_data := by
    unfold FecBase.dataList
    rw [if_pos hs, ← hall]
    rw [hall]
    exact (present_eq_avail datas hd).trans hall
  rw [if_pos h1] at hsel
  unfold FecV.decode_streams_vertical
  simp [hs, cassert, hd, hp, hq, ho, hsel, pure, Except.pure]

/-- C26 for blocks: `missing` tells which fragments are missing, data first in systematic mode. -/
theorem C26_blocks (E : FecV) {datas pars : Array (Option (Array Nat))} {props : Array Properties} {missing wanted : Array Bool} (bytes : Nat)
    (mem : Nat → Nat) (junk : Nat → Nat → Nat) (H : Heap) (hk : 0 < E.base.n_data) (hd : datas.size = E.base.n_data)
    (hp : pars.size = E.base.n_outputs) (hq : props.size = E.base.n_outputs)
    (hm : missing.size = if E.base.sys then E.base.n_data + E.base.n_outputs else E.base.n_outputs) :
    (missing.toList.count false < E.base.n_data →
      E.decode_blocks_vertical datas pars props missing wanted bytes mem junk H = .ok (false, datas, H)) ∧
    (E.base.sys = true → (∀ i, i < E.base.n_data → gt missing i = false) →
      E.decode_blocks_vertical datas pars props missing wanted bytes mem junk H = .ok (true, datas, H)) := by
  have hsel := E.base.selectFragments_spec hk (data := missing.map (fun b => !b))
    (parities := if E.base.sys then (missing.map (fun b => !b)).extract E.base.n_data (missing.map (fun b => !b)).size
      else missing.map (fun b => !b)) mem
    (fun h => by rw [Array.size_map, hm, if_pos h]; omega) (by
      split
      · rename_i h
        rw [if_pos h] at hm
        rw [Array.size_extract, Array.size_map]; omega
      · rename_i h
        rw [if_neg h] at hm
        rw [Array.size_map]; omega)
  have hgo : ∀ {r : Select} {v : Bool}, (r = .allData ∧ v = true) ∨ (r = .tooFew ∧ v = false) →
      E.base.selectFragments (missing.map (fun b => !b)) (if E.base.sys then (missing.map (fun b => !b)).extract E.base.n_data
        (missing.map (fun b => !b)).size else missing.map (fun b => !b)) mem = .ok r →
      E.decode_blocks_vertical datas pars props missing wanted bytes mem junk H = .ok (v, datas, H) := by
    intro r v hv hr
    unfold FecV.decode_blocks_vertical
    by_cases hs : E.base.sys = true
    · simp only [hs, if_true] at hr ⊢
      simp only [cassert, hd, hp, hq, decide_true, if_true, ok_bind, hr]
      rcases hv with ⟨rfl, rfl⟩ | ⟨rfl, rfl⟩ <;> rfl
    · simp only [hs, Bool.false_eq_true, if_false] at hr ⊢
      simp only [cassert, hp, hq, decide_true, if_true, ok_bind, pure, Except.pure, hr]
      rcases hv with ⟨rfl, rfl⟩ | ⟨rfl, rfl⟩ <;> rfl
  by_cases hs : E.base.sys = true
  · rw [if_pos hs] at hm
    have hdl : E.base.dataList (missing.map (fun b => !b)) = present (missing.map (fun b => !b)) E.base.n_data := by
      unfold FecBase.dataList; rw [if_pos hs]
    have hall := present_not_all (missing := missing) (k := E.base.n_data) (by omega)
    have htot := present_not_split hm
    rw [if_pos hs] at hsel
    rw [hdl, htot] at hsel
    refine ⟨fun hf => ?_, fun _ h => ?_⟩
    · have : ¬ (present (missing.map (fun b => !b)) E.base.n_data).length = E.base.n_data := by omega
      rw [if_neg this, if_pos hf] at hsel
      exact hgo (.inr ⟨rfl, rfl⟩) (by rw [if_pos hs]; exact hsel)
    · rw [if_pos (hall.mpr h)] at hsel
      exact hgo (.inl ⟨rfl, rfl⟩) (by rw [if_pos hs]; exact hsel)
  · rw [if_neg hs] at hm
    have hdl : E.base.dataList (missing.map (fun b => !b)) = [] := by
      unfold FecBase.dataList; rw [if_neg hs]
    have htot := present_not_count hm
    rw [if_neg hs] at hsel
    rw [hdl, htot, List.length_nil, if_neg (by omega), Nat.zero_add] at hsel
    refine ⟨fun hf => ?_, fun h => absurd h hs⟩
    rw [if_pos hf] at hsel
    exact hgo (.inr ⟨rfl, rfl⟩) (by rw [if_neg hs]; exact hsel)

/-! ### concrete cases -/

/-- 3 data fragments, 2 parities, bytes, systematic -/
def code1 : FntCode := ⟨32, 64, 1, 3, 2, true⟩
/-- 100 data fragments, 200 parities, 16-bit words, `uint64_t` -/
def code2 : FntCode := ⟨64, 128, 2, 100, 200, false⟩

theorem code1_ok : code1.Ok := ⟨.inl ⟨rfl, rfl⟩, .inl rfl, by decide, by decide, by decide, by decide⟩

example : code2.Ok := ⟨.inr (.inl ⟨rfl, rfl⟩), .inr rfl, by decide, by decide, by decide, by decide⟩

/-- an object in use -/
example : ∃ R C H, code1.Reachable 8 R C H := by
  obtain ⟨H, R, e⟩ := C23_new code1_ok (simd := none) (by simp [FntCode.Builds]) 8 (fun _ => 0) (fun _ _ => 0) #[]
  exact ⟨R, _, H, .new ⟨none, by simp [FntCode.Builds], _, _, _, e⟩⟩

/-- the same code in 16-bit elements, in a build with registers of 32 bytes -/
def code3 : FntCode := ⟨16, 32, 1, 3, 2, true⟩

example : code3.Ok := ⟨.inr (.inr ⟨rfl, rfl, rfl⟩), .inl rfl, by decide, by decide, by decide, by decide⟩

example : ∃ H' R, RsFntObj.mk' (.simd 32 2) 16 32 true 1 3 2 50 (fun _ => 0) (fun _ _ => 0) #[] = .ok (H', R) :=
  C23_new (c := code3) ⟨.inr (.inr ⟨rfl, rfl, rfl⟩), .inl rfl, by decide, by decide, by decide, by decide⟩ (simd := some 32)
    (by rintro R h; cases h; exact ⟨.inr rfl, .inr rfl⟩) 50 _ _ _

def data1 : Array (List Nat) := #[[1, 2, 3, 4], [5, 6, 7, 255], [9, 10, 11, 12]]

theorem data1_ok : code1.Data data1 4 := ⟨rfl, by decide, by decide⟩

/-- fragments 0 and 1 of the data are lost, the others survive: 1 + 2 = 3 -/
example : ∃ frags fprops, code1.Encoded data1 frags fprops ∧
    code1.Surviving data1 frags fprops #[none, none, some [9, 10, 11, 12]] #[some (gt frags 0), some (gt frags 1)] fprops ∧
    avail #[none, none, some [9, 10, 11, 12]] < code1.k ∧
    code1.k ≤ avail #[none, none, some [9, 10, 11, 12]] + avail #[some (gt frags 0), some (gt frags 1)] := by
  obtain ⟨fr, fp, s1, s2, _, h, _⟩ := C36_streams_unique_partial code1_ok data1_ok
  refine ⟨fr, fp, (h fr fp).mpr ⟨rfl, rfl⟩, ⟨fun _ => rfl, rfl, s2, ?_, ?_⟩, by decide, ?_⟩
  · intro _ i s hi h
    have hi' : i < 3 := hi
    interval_cases i <;> simp [gt] at h <;> exact h.symm
  · intro f s hf h
    have hf' : f < 2 := hf
    refine ⟨?_, rfl⟩
    interval_cases f <;> simp [gt] at h <;> simpa [gt] using h.symm
  · show 3 ≤ 1 + avail _
    simp [avail]

end Quad.Props
