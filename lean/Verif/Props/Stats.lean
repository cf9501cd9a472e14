import Verif.Lemmas.Stats
import Verif.Props.Lengths

/-!
# C75: the counters of operations and times

C75 asks that after a call of a function that codes streams or blocks the counters describe this call: one operation for each word or packet coded, the sum of
the times measured, and of the cycles for each byte; and that what is coded does not depend on the counters and clocks.  The functions that end in `S` are those
of the model with counters; the others are those all other theorems are about.  `clk i` has what the clocks show around the `i`-th operation.
-/

namespace Quad.Props
open Quad Quad.Spec

/-! ## Counters and clocks do not change what is coded -/

/-- C75, results: each function gives, whatever the clocks and counters, what it gives in the model without them. -/
theorem C75_words_same_results {Γ : Type} (E : Fec Γ) (hw : 0 < E.base.word_size) (props : Array Properties) (mem : Nat → Nat) (clk : Nat → Timing) (st : Stats) :
    (∀ data outs, Except.map Prod.fst (E.encode_streams_horizontalS data outs props mem clk st) = E.encode_streams_horizontal data outs props mem) ∧
    (∀ datas pars outs, Except.map Prod.fst (E.decode_streams_horizontalS datas pars props outs mem clk st) =
      E.decode_streams_horizontal datas pars props outs mem) :=
  ⟨fun _ _ => Fec.encode_streams_horizontalS_erase hw _ _ _ _ _ _, fun _ _ _ => Fec.decode_streams_horizontalS_erase hw _ _ _ _ _ _ _⟩

@[inherit_doc C75_words_same_results]
theorem C75_packets_same_results (E : FecV) (hw : 0 < E.base.word_size) (hp : 0 < E.base.pkt_size) (C : CtxB) (props : Array Properties) (mem : Nat → Nat)
    (junk : Nat → Nat → Nat) (H : Heap) (clk : Nat → Timing) (st : Stats) :
    (∀ data outs, Except.map Prod.fst (E.encode_streams_verticalS C data outs props junk H clk st) = E.encode_streams_vertical C data outs props junk H) ∧
    (∀ datas pars outs, Except.map Prod.fst (E.decode_streams_verticalS datas pars props outs mem junk H clk st) =
      E.decode_streams_vertical datas pars props outs mem junk H) ∧
    (∀ datas pars wanted n, Except.map Prod.fst (E.encode_blocks_verticalS C datas pars props wanted n junk H clk st) =
      E.encode_blocks_vertical C datas pars props wanted n junk H) ∧
    (∀ datas pars missing wanted n, Except.map Prod.fst (E.decode_blocks_verticalS datas pars props missing wanted n mem junk H clk st) =
      E.decode_blocks_vertical datas pars props missing wanted n mem junk H) :=
  ⟨fun _ _ => FecV.encode_streams_verticalS_erase (Nat.mul_pos hp hw) _ _ _ _ _ _ _ _, fun _ _ _ => FecV.decode_streams_verticalS_erase hw _ _ _ _ _ _ _ _ _,
    fun _ _ _ _ => FecV.encode_blocks_verticalS_erase _ _ _ _ _ _ _ _ _ _, fun _ _ _ _ _ => FecV.decode_blocks_verticalS_erase hw _ _ _ _ _ _ _ _ _ _ _⟩

/-! ## Encoding -/

private theorem cassert_true {b : Bool} {u : Unit} (h : cassert b = .ok u) : b = true := by
  cases b
  · cases h
  · rfl

/-- C75, encoding word by word: one operation for each word that all streams have, its cycles for each byte of the word. -/
theorem C75_encode_words {Γ : Type} (E : Fec Γ) (hw : WordSize E.base.word_size) {data outs : Array (List Nat)} {props : Array Properties} {mem : Nat → Nat}
    {r : Array (List Nat) × Array Properties} (h : E.encode_streams_horizontal data outs props mem = .ok r) {n : Nat}
    (hn : ∀ i, i < E.base.n_data → n * E.base.word_size ≤ (gt data i).length)
    (hn' : ∃ i, i < E.base.n_data ∧ (gt data i).length < (n + 1) * E.base.word_size) (clk : Nat → Timing) (st : Stats) :
    E.encode_streams_horizontalS data outs props mem clk st = .ok (r, { st with enc := describes n (fun _ => E.base.word_size) clk }) := by
  obtain ⟨st', e⟩ := erase_ok (Fec.encode_streams_horizontalS_erase hw.pos data outs props mem clk st) h
  rw [e]
  unfold Fec.encode_streams_horizontalS at e
  obtain ⟨_, c1, e⟩ := bind_ok e
  obtain ⟨_, c2, e⟩ := bind_ok e
  obtain ⟨_, c3, e⟩ := bind_ok e
  have hs : data.size = E.base.n_data := of_decide_eq_true (cassert_true c1)
  obtain ⟨⟨r', c⟩, e1, e⟩ := bind_ok e
  have e := Except.ok.inj e
  injection e with q1 q2
  have := Fec.encLoopS_count hw (n := n) (S := gt data) (by simpa using hs) (fun i hi => by rw [gt_map (by omega)]) (by simp [fresh]) hn hn' e1
  rw [← q2, show c = _ from this]
  show _ = Except.ok (r, ({ enc := _, dec := _ } : Stats))
  rw [← Counters.addAll_empty]
  rfl

/-- C75, encoding packets: one operation for each packet, its cycles for each byte of the packet.  `j` is the last of the streams with the fewest whole
packets; it decides where encoding ends (C63). -/
theorem C75_encode_packets (E : FecV) (hb : 0 < E.buf_size) {C C' : CtxB} {data outs : Array (List Nat)} {props p : Array Properties}
    {junk : Nat → Nat → Nat} {H H' : Heap} {o : Array (Option (List Nat))} (h : E.encode_streams_vertical C data outs props junk H = .ok (o, p, C', H'))
    {j : Nat} (hj : LastShort E.buf_size E.base.n_data (fun i => (gt data i).length) j) (clk : Nat → Timing) (st : Stats) :
    E.encode_streams_verticalS C data outs props junk H clk st =
      .ok ((o, p, C', H'), { st with enc := describes (packets (gt data j).length E.buf_size) (fun _ => E.buf_size) clk }) := by
  obtain ⟨st', e⟩ := erase_ok (FecV.encode_streams_verticalS_erase hb C data outs props junk H clk st) h
  rw [e]
  unfold FecV.encode_streams_verticalS at e
  obtain ⟨_, c1, e⟩ := bind_ok e
  obtain ⟨_, c2, e⟩ := bind_ok e
  obtain ⟨_, c3, e⟩ := bind_ok e
  have hs : data.size = E.base.n_data := of_decide_eq_true (cassert_true c1)
  simp only at e
  obtain ⟨⟨⟨o1, s1⟩, c⟩, e1, e⟩ := bind_ok e
  have e := Except.ok.inj e
  injection e with q1 q2
  have hd := Nat.div_add_mod (gt data j).length E.buf_size
  rw [Nat.mul_comm] at hd
  have hmul : ∀ {a i}, a ≤ (gt data i).length / E.buf_size → a * E.buf_size ≤ (gt data i).length := fun h =>
    le_trans (Nat.mul_le_mul_right _ h) (Nat.div_mul_le_self _ _)
  have := FecV.encLoopS_count hb hj.lt (Nat.mod_lt (gt data j).length hb) (S := gt data) (by simpa using hs) (fun i hi => by rw [gt_map (by omega)])
    (by simp [freshChars]) hd.symm (fun i hi => hmul (hj.fewest i hi)) (fun i h1 h2 => hmul (hj.last i h1 h2)) e1
  rw [← q2, show c = _ from this, ← FecV.packets_divMod hb]
  show _ = Except.ok (_, ({ enc := _, dec := _ } : Stats))
  rw [← Counters.addAll_empty]
  rfl

/-- C75, encoding blocks: one operation for each packet, its cycles for each byte that is used of the packet. -/
theorem C75_encode_blocks (E : FecV) {C C' : CtxB} {datas pars o : Array (Option (Array Nat))} {props p : Array Properties} {wanted : Array Bool} {bytes : Nat}
    {junk : Nat → Nat → Nat} {H H' : Heap} (h : E.encode_blocks_vertical C datas pars props wanted bytes junk H = .ok (o, p, C', H'))
    (clk : Nat → Timing) (st : Stats) :
    E.encode_blocks_verticalS C datas pars props wanted bytes junk H clk st =
      .ok ((o, p, C', H'), { st with enc := (describes (packets (bytes / E.base.word_size) E.base.pkt_size)
        (fun i => min E.base.pkt_size (bytes / E.base.word_size - i * E.base.pkt_size) * E.base.word_size) clk) }) := by
  obtain ⟨st', e⟩ := erase_ok (FecV.encode_blocks_verticalS_erase C datas pars props wanted bytes junk H clk st) h
  rw [e]
  unfold FecV.encode_blocks_verticalS at e
  obtain ⟨_, c1, e⟩ := bind_ok e
  obtain ⟨_, c2, e⟩ := bind_ok e
  obtain ⟨_, c3, e⟩ := bind_ok e
  simp only at e
  obtain ⟨⟨⟨o1, s1⟩, c⟩, e1, e⟩ := bind_ok e
  have e := Except.ok.inj e
  injection e with q1 q2
  have := FecV.encBlockLoopS_count e1
  rw [Nat.sub_zero] at this
  rw [← q2, show c = _ from this]
  show _ = Except.ok (_, ({ enc := _, dec := _ } : Stats))
  rw [← Counters.addAll_empty]
  rfl

/-! ## Decoding -/

private theorem red {α : Type} {sys : Bool} {a b c d : Bool} {x : Res Select} {f : Select → Res α} (ha : sys = true → a = true) (hb : b = true) (hc : c = true)
    (hd : d = true) : (do
      if sys then cassert a else pure ()
      cassert b
      cassert c
      cassert d
      let sel ← x
      f sel) = (x >>= f) := by
  subst hb hc hd
  cases sys
  · rfl
  · rw [ha rfl]; rfl

/-- what is selected -/
private theorem select (B : FecBase) (hk : 0 < B.n_data) {datas pars : Array (Option (List Nat))} (mem : Nat → Nat) (hd : datas.size = B.n_data)
    (hp : pars.size = B.n_outputs) :
    B.selectFragments (datas.map Option.isSome) (pars.map Option.isSome) mem = .ok (
      if (if B.sys then avail datas else 0) = B.n_data then .allData
      else if (if B.sys then avail datas else 0) + avail pars < B.n_data then .tooFew
      else .use (B.idList (datas.map Option.isSome) (pars.map Option.isSome)).toArray (B.parList (datas.map Option.isSome) (pars.map Option.isSome)).toArray
        (B.dataList (datas.map Option.isSome)).length) ∧
      (¬ (if B.sys then avail datas else 0) = B.n_data → ¬ (if B.sys then avail datas else 0) + avail pars < B.n_data →
        FecV.Chosen B (datas.map Option.isSome) (pars.map Option.isSome) (B.idList (datas.map Option.isSome) (pars.map Option.isSome)).toArray
          (B.parList (datas.map Option.isSome) (pars.map Option.isSome)).toArray (B.dataList (datas.map Option.isSome)).length) := by
  have h1 : (B.dataList (datas.map Option.isSome)).length = if B.sys then avail datas else 0 := by
    unfold FecBase.dataList
    split
    · exact present_eq_avail datas hd
    · rfl
  have h2 : (present (pars.map Option.isSome) B.n_outputs).length = avail pars := present_eq_avail pars hp
  have hsel := B.selectFragments_spec hk (data := datas.map Option.isSome) (parities := pars.map Option.isSome) mem
    (fun _ => by simp [hd]) (by simp [hp])
  have hch := FecV.chosen_spec B (dmask := datas.map Option.isSome) (pmask := pars.map Option.isSome)
  rw [h1, h2] at hch
  refine ⟨?_, fun q1 q2 => by rw [h1]; exact hch q1 q2⟩
  rw [hsel, h1, h2]
  rfl

private theorem picks {B : FecBase} {datas pars : Array (Option (List Nat))} {ids apar : Array Nat} {nd L : Nat}
    (hc : FecV.Chosen B (datas.map Option.isSome) (pars.map Option.isSome) ids apar nd)
    (hd : ∀ i s, gt datas i = some s → s.length = L) (hp : ∀ i s, gt pars i = some s → s.length = L) :
    ∃ S : Nat → List Nat, FecV.Picks ids apar nd B.n_data datas pars S ∧ ∀ i, i < B.n_data → (S i).length = L := by
  refine ⟨fun i => if i < nd then (gt datas (gt ids i)).getD [] else (gt pars (gt apar (i - nd))).getD [], ⟨fun i hi => ?_, fun i hi => ?_⟩, fun i hi => ?_⟩
  · obtain ⟨_, _, q⟩ := hc.data i hi
    obtain ⟨z, s, e⟩ := Fec.isSome_mask q
    exact ⟨z, by simp only [if_pos hi]; rw [e]; rfl⟩
  · obtain ⟨_, q, _⟩ := hc.par i hi
    obtain ⟨z, s, e⟩ := Fec.isSome_mask q
    exact ⟨z, by simp only [if_neg (show ¬ nd + i < nd by omega), Nat.add_sub_cancel_left]; rw [e]; rfl⟩
  · simp only
    split
    · rename_i h
      obtain ⟨_, _, q⟩ := hc.data i h
      obtain ⟨z, s, e⟩ := Fec.isSome_mask q
      rw [e]; exact hd _ _ e
    · rename_i h
      obtain ⟨_, q, _⟩ := hc.par (i - nd) (by omega)
      obtain ⟨z, s, e⟩ := Fec.isSome_mask q
      rw [e]; exact hp _ _ e

/-- C75, decoding word by word: one operation for each word of the fragments, its cycles for each byte of the word; and none if nothing is decoded because
all data is there or too few fragments are. -/
theorem C75_decode_words {Γ : Type} (E : Fec Γ) (hw : WordSize E.base.word_size) (hk : 0 < E.base.n_data) (hcl : E.base.n_data ≤ E.base.code_len)
    {datas pars outs o : Array (Option (List Nat))} {props : Array Properties} {mem : Nat → Nat} {v : Bool}
    (hd : datas.size = E.base.n_data) (hp : pars.size = E.base.n_outputs) (hq : props.size = E.base.n_outputs) (ho : outs.size = E.base.n_data) {L : Nat}
    (hld : ∀ i s, gt datas i = some s → s.length = L) (hlp : ∀ i s, gt pars i = some s → s.length = L)
    (h : E.decode_streams_horizontal datas pars props outs mem = .ok (v, o)) (clk : Nat → Timing) (st : Stats) :
    E.decode_streams_horizontalS datas pars props outs mem clk st = .ok ((v, o), { st with dec := (
      if (E.base.sys = true ∧ avail datas = E.base.n_data) ∨ (if E.base.sys then avail datas else 0) + avail pars < E.base.n_data then {}
      else describes (L / E.base.word_size) (fun _ => E.base.word_size) clk) }) := by
  obtain ⟨st', e⟩ := erase_ok (Fec.decode_streams_horizontalS_erase hw.pos datas pars outs props mem clk st) h
  rw [e]
  obtain ⟨hsel, hch⟩ := select E.base hk mem hd hp
  unfold Fec.decode_streams_horizontalS at e
  simp only at e
  rw [red (fun _ => by simpa using hd) (by simpa using hp) (by simpa using hq) (by simpa using ho), hsel, ok_bind] at e
  by_cases hall : (if E.base.sys then avail datas else 0) = E.base.n_data
  · rw [if_pos hall] at e
    have e := Except.ok.inj e
    injection e with _ q2
    have hs : E.base.sys = true := by
      by_contra hh
      rw [if_neg hh] at hall
      omega
    rw [if_pos hs] at hall
    rw [← q2, if_pos (.inl ⟨hs, hall⟩)]
    rfl
  rw [if_neg hall] at e
  by_cases hfew : (if E.base.sys then avail datas else 0) + avail pars < E.base.n_data
  · rw [if_pos hfew] at e
    have e := Except.ok.inj e
    injection e with _ q2
    rw [← q2, if_pos (.inr hfew)]
    rfl
  rw [if_neg hfew] at e
  have hc := hch hall hfew
  simp only at e
  obtain ⟨x, _, e⟩ := bind_ok e
  obtain ⟨⟨os, c⟩, e1, e⟩ := bind_ok e
  have e := Except.ok.inj e
  injection e with _ q2
  obtain ⟨S, hpk, hl⟩ := picks hc hld hlp
  have hdm := Nat.div_add_mod L E.base.word_size
  have hm := Nat.mod_lt L hw.pos
  rw [Nat.mul_comm] at hdm
  have := Fec.decLoopS_count hw hc.lt.le hc.ndz (fun i j hi hj he => hc.valid.inj i j (by have := hc.lt; omega) (by have := hc.lt; omega) he)
    (by rw [hc.valid.size]; exact hc.lt.le) hc.ainj hc.asz.ge (n := L / E.base.word_size) hpk (by simp [fresh]; split <;> omega)
    (fun i hi => by rw [hl i hi]; omega) ⟨0, hk, by rw [hl 0 hk, Nat.add_mul]; omega⟩ e1
  rw [← q2, show c = _ from this, if_neg (by
    rintro (⟨a, b⟩ | a)
    · rw [if_pos a] at hall; exact hall b
    · exact hfew a)]
  show _ = Except.ok (_, ({ enc := _, dec := _ } : Stats))
  rw [← Counters.addAll_empty]
  rfl

/-- C75, decoding packets: one operation for each packet.  Missing: the cycles are divided by the size of a word and not of a packet
(`C75_decode_cycles_inflated`), and counters of earlier calls stay when nothing is decoded (`C75_decode_packets_stale`). -/
theorem C75_decode_packets_partial (E : FecV) (hw : 0 < E.base.word_size) (hb : 0 < E.buf_size) (hk : 0 < E.base.n_data)
    {datas pars outs o : Array (Option (List Nat))} {props : Array Properties} {mem : Nat → Nat} {junk : Nat → Nat → Nat} {H H' : Heap} {v : Bool}
    (hd : datas.size = E.base.n_data) (hp : pars.size = E.base.n_outputs) (hq : props.size = E.base.n_outputs) (ho : outs.size = E.base.n_data) {L : Nat}
    (hld : ∀ i s, gt datas i = some s → s.length = L) (hlp : ∀ i s, gt pars i = some s → s.length = L)
    (hall : ¬ (E.base.sys = true ∧ avail datas = E.base.n_data)) (hfew : E.base.n_data ≤ (if E.base.sys then avail datas else 0) + avail pars)
    (h : E.decode_streams_vertical datas pars props outs mem junk H = .ok (v, o, H')) (clk : Nat → Timing) (st : Stats) :
    E.decode_streams_verticalS datas pars props outs mem junk H clk st = .ok ((v, o, H'), { st with dec := (
      describes (packets L E.buf_size) (fun _ => E.base.word_size) clk) }) := by
  obtain ⟨st', e⟩ := erase_ok (FecV.decode_streams_verticalS_erase hw datas pars outs props mem junk H clk st) h
  rw [e]
  obtain ⟨hsel, hch⟩ := select E.base hk mem hd hp
  unfold FecV.decode_streams_verticalS at e
  simp only at e
  have hall' : ¬ (if E.base.sys then avail datas else 0) = E.base.n_data := by
    split
    · rename_i hs; exact fun hh => hall ⟨hs, hh⟩
    · omega
  rw [red (fun _ => by simpa using hd) (by simpa using hp) (by simpa using hq) (by simpa using ho), hsel, ok_bind, if_neg hall', if_neg (by omega)] at e
  have hc := hch hall' (by omega)
  simp only at e
  rw [hc.sorted] at e
  obtain ⟨x, _, e⟩ := bind_ok e
  obtain ⟨⟨⟨os, H1⟩, c⟩, e1, e⟩ := bind_ok e
  have e := Except.ok.inj e
  injection e with _ q2
  obtain ⟨S, hpk, hl⟩ := picks hc hld hlp
  have hdm := Nat.div_add_mod L E.buf_size
  have hm := Nat.mod_lt L hb
  rw [Nat.mul_comm] at hdm
  have := FecV.decLoopS_count hw hb hc.lt.le hc.ndz (fun i j hi hj he => hc.valid.inj i j (by have := hc.lt; omega) (by have := hc.lt; omega) he)
    (by rw [hc.valid.size]; exact hc.lt.le) hc.ainj hc.asz.ge (j := E.base.n_data - 1) (by omega) hm (P := L / E.buf_size) hpk (by simp [freshChars])
    (by rw [hl _ (by omega)]; exact hdm.symm)
    (fun i hi => by rw [hl i hi]; omega) (fun i h1 h2 => by omega) e1
  rw [← q2, show c = _ from this, FecV.packets_divMod hb]
  show _ = Except.ok (_, ({ enc := _, dec := _ } : Stats))
  rw [← Counters.addAll_empty]
  rfl

/-- C75 fails: when packets of streams are not decoded, because all data is there or too few fragments are, the counters are still those of an earlier call. -/
theorem C75_decode_packets_stale (E : FecV) (hk : 0 < E.base.n_data)
    {datas pars outs : Array (Option (List Nat))} {props : Array Properties} {mem : Nat → Nat} {junk : Nat → Nat → Nat} {H : Heap}
    (hd : datas.size = E.base.n_data) (hp : pars.size = E.base.n_outputs) (hq : props.size = E.base.n_outputs) (ho : outs.size = E.base.n_data)
    (hno : (E.base.sys = true ∧ avail datas = E.base.n_data) ∨ (if E.base.sys then avail datas else 0) + avail pars < E.base.n_data)
    (clk : Nat → Timing) (st : Stats) :
    ∃ v, E.decode_streams_verticalS datas pars props outs mem junk H clk st = .ok ((v, outs, H), st) := by
  obtain ⟨hsel, _⟩ := select E.base hk mem hd hp
  unfold FecV.decode_streams_verticalS
  simp only
  rw [red (fun _ => by simpa using hd) (by simpa using hp) (by simpa using hq) (by simpa using ho), hsel, ok_bind]
  by_cases hall : (if E.base.sys then avail datas else 0) = E.base.n_data
  · rw [if_pos hall]; exact ⟨true, rfl⟩
  · rw [if_neg hall]
    rcases hno with ⟨a, b⟩ | a
    · rw [if_pos a] at hall; exact absurd b hall
    · rw [if_pos a]; exact ⟨false, rfl⟩

/-- what the blocks select: all data there, too few, or a choice -/
private theorem selectBlocks (B : FecBase) (hk : 0 < B.n_data) {missing : Array Bool} (mem : Nat → Nat)
    (hm : missing.size = if B.sys then B.n_data + B.n_outputs else B.n_outputs) :
    (B.sys = true → (∀ i, i < B.n_data → gt missing i = false) → B.selectFragments (missing.map (fun b => !b)) (if B.sys then
      (missing.map (fun b => !b)).extract B.n_data (missing.map (fun b => !b)).size else missing.map (fun b => !b)) mem = .ok .allData) ∧
    (missing.toList.count false < B.n_data → B.selectFragments (missing.map (fun b => !b)) (if B.sys then
      (missing.map (fun b => !b)).extract B.n_data (missing.map (fun b => !b)).size else missing.map (fun b => !b)) mem = .ok .tooFew) ∧
    ((B.sys = true → ∃ i, i < B.n_data ∧ gt missing i = true) → B.n_data ≤ missing.toList.count false →
      ∃ ids apar nd, B.selectFragments (missing.map (fun b => !b)) (if B.sys then
      (missing.map (fun b => !b)).extract B.n_data (missing.map (fun b => !b)).size else missing.map (fun b => !b)) mem = .ok (.use ids apar nd)) := by
  have hsel := B.selectFragments_spec hk (data := missing.map (fun b => !b))
    (parities := if B.sys then (missing.map (fun b => !b)).extract B.n_data (missing.map (fun b => !b)).size
      else missing.map (fun b => !b)) mem
    (fun h => by rw [Array.size_map, hm, if_pos h]; omega) (by
      split
      · rename_i h
        rw [if_pos h] at hm
        rw [Array.size_extract, Array.size_map]; omega
      · rename_i h
        rw [if_neg h] at hm
        rw [Array.size_map]; omega)
  by_cases hs : B.sys = true
  · rw [if_pos hs] at hm
    have hdl : B.dataList (missing.map (fun b => !b)) = present (missing.map (fun b => !b)) B.n_data := by
      unfold FecBase.dataList; rw [if_pos hs]
    have hall := present_not_all (missing := missing) (k := B.n_data) (by omega)
    have htot := present_not_split hm
    rw [if_pos hs] at hsel ⊢
    rw [hdl, htot] at hsel
    refine ⟨fun _ h => ?_, fun hf => ?_, fun h1 h2 => ?_⟩
    · rw [if_pos (hall.mpr h)] at hsel
      exact hsel
    · rw [if_neg (by omega), if_pos hf] at hsel
      exact hsel
    · obtain ⟨i, hi, e⟩ := h1 hs
      rw [if_neg (fun hh => by rw [hall.mp hh i hi] at e; cases e), if_neg (by omega)] at hsel
      exact ⟨_, _, _, hsel⟩
  · rw [if_neg hs] at hm
    have hdl : B.dataList (missing.map (fun b => !b)) = [] := by
      unfold FecBase.dataList; rw [if_neg hs]
    have htot := present_not_count hm
    rw [if_neg hs] at hsel ⊢
    rw [hdl, htot, List.length_nil, if_neg (by omega), Nat.zero_add] at hsel
    refine ⟨fun h => absurd h hs, fun hf => ?_, fun _ h2 => ?_⟩
    · rw [if_pos hf] at hsel
      exact hsel
    · rw [if_neg (by omega)] at hsel
      exact ⟨_, _, _, hsel⟩

private theorem redBlocks {α : Type} {sys : Bool} {a b c : Bool} {x : Res Select} {f : Select → Res α} (ha : sys = true → a = true) (hb : b = true)
    (hc : c = true) : (do
      if sys then cassert a else pure ()
      cassert b
      cassert c
      let sel ← x
      f sel) = (x >>= f) := by
  subst hb hc
  cases sys
  · rfl
  · rw [ha rfl]; rfl

/-- C75, decoding blocks: one operation for each packet.  Missing: as for streams. -/
theorem C75_decode_blocks_partial (E : FecV) (hw : 0 < E.base.word_size) (hpk : 0 < E.base.pkt_size) (hk : 0 < E.base.n_data)
    {datas pars o : Array (Option (Array Nat))} {props : Array Properties} {missing wanted : Array Bool} {bytes : Nat} {mem : Nat → Nat}
    {junk : Nat → Nat → Nat} {H H' : Heap} {v : Bool} (hd : datas.size = E.base.n_data)
    (hp : pars.size = E.base.n_outputs) (hq : props.size = E.base.n_outputs)
    (hm : missing.size = if E.base.sys then E.base.n_data + E.base.n_outputs else E.base.n_outputs)
    (hall : E.base.sys = true → ∃ i, i < E.base.n_data ∧ gt missing i = true) (hfew : E.base.n_data ≤ missing.toList.count false)
    (h : E.decode_blocks_vertical datas pars props missing wanted bytes mem junk H = .ok (v, o, H')) (clk : Nat → Timing) (st : Stats) :
    E.decode_blocks_verticalS datas pars props missing wanted bytes mem junk H clk st = .ok ((v, o, H'), { st with dec := (
      describes (packets (bytes / E.base.word_size) E.base.pkt_size) (fun _ => E.base.word_size) clk) }) := by
  obtain ⟨st', e⟩ := erase_ok (FecV.decode_blocks_verticalS_erase hw datas pars props missing wanted bytes mem junk H clk st) h
  rw [e]
  obtain ⟨ids, apar, nd, hsel⟩ := (selectBlocks E.base hk mem hm).2.2 hall hfew
  unfold FecV.decode_blocks_verticalS at e
  simp only at e
  rw [redBlocks (fun _ => by simpa using hd) (by simpa using hp) (by simpa using hq), hsel, ok_bind] at e
  simp only at e
  obtain ⟨x, _, e⟩ := bind_ok e
  obtain ⟨⟨⟨os, H1⟩, c⟩, e1, e⟩ := bind_ok e
  have e := Except.ok.inj e
  injection e with _ q2
  have := FecV.decBlockLoopS_count hw hpk e1
  rw [Nat.sub_zero] at this
  rw [← q2, show c = _ from this]
  show _ = Except.ok (_, ({ enc := _, dec := _ } : Stats))
  rw [← Counters.addAll_empty]
  rfl

/-- C75 fails: when blocks are not decoded, because all data is there or too few fragments are, the counters are still those of an earlier call. -/
theorem C75_decode_blocks_stale (E : FecV) (hk : 0 < E.base.n_data)
    {datas pars : Array (Option (Array Nat))} {props : Array Properties} {missing wanted : Array Bool} {bytes : Nat} {mem : Nat → Nat}
    {junk : Nat → Nat → Nat} {H : Heap} (hd : datas.size = E.base.n_data)
    (hp : pars.size = E.base.n_outputs) (hq : props.size = E.base.n_outputs)
    (hm : missing.size = if E.base.sys then E.base.n_data + E.base.n_outputs else E.base.n_outputs)
    (hno : (E.base.sys = true ∧ ∀ i, i < E.base.n_data → gt missing i = false) ∨ missing.toList.count false < E.base.n_data)
    (clk : Nat → Timing) (st : Stats) :
    ∃ v, E.decode_blocks_verticalS datas pars props missing wanted bytes mem junk H clk st = .ok ((v, datas, H), st) := by
  obtain ⟨s1, s2, _⟩ := selectBlocks E.base hk mem hm
  unfold FecV.decode_blocks_verticalS
  simp only
  rw [redBlocks (fun _ => by simpa using hd) (by simpa using hp) (by simpa using hq)]
  rcases hno with ⟨a, b⟩ | a
  · rw [s1 a b, ok_bind]; exact ⟨true, rfl⟩
  · rw [s2 a, ok_bind]; exact ⟨false, rfl⟩

/-- C75, what the file program prints: the cycles for each byte, on average over the operations; 0 if there were none. -/
theorem C75_printed {n : Nat} {d : Nat → Nat} {clk : Nat → Timing} (hn : n < 2 ^ 64) (hs : ∑ i ∈ Finset.range n, elapsed (clk i) / d i < 2 ^ 64) :
    (describes n d clk).printed = (∑ i ∈ Finset.range n, elapsed (clk i) / d i) / n := by
  unfold describes Counters.printed
  simp only [Nat.mod_eq_of_lt hn, Nat.mod_eq_of_lt hs]
  split
  · rfl
  · rename_i h
    rw [not_not.1 h, Nat.div_zero]

/-- C75, nothing done: nothing is printed but zeros. -/
theorem C75_printed_none (d : Nat → Nat) (clk : Nat → Timing) : (describes 0 d clk).printed = 0 := rfl

/-- C75 fails: if each operation takes `m` cycles for each byte of a packet, the figure the file program prints is `m` after encoding packets and `m`
times the number of words of a packet after decoding them. -/
theorem C75_decode_cycles_inflated (E : FecV) (hw : 0 < E.base.word_size) (hp : 0 < E.base.pkt_size) {n m : Nat} (hn : 0 < n) {clk : Nat → Timing}
    (hm : ∀ i, elapsed (clk i) = m * E.buf_size) (hs : n * (m * E.base.pkt_size) < 2 ^ 64) (hn' : n < 2 ^ 64) :
    (describes n (fun _ => E.buf_size) clk).printed = m ∧ (describes n (fun _ => E.base.word_size) clk).printed = m * E.base.pkt_size := by
  have hb : 0 < E.buf_size := Nat.mul_pos hp hw
  have e1 : ∀ i, elapsed (clk i) / E.buf_size = m := fun i => by rw [hm, Nat.mul_div_cancel _ hb]
  have e2 : ∀ i, elapsed (clk i) / E.base.word_size = m * E.base.pkt_size := fun i => by
    rw [hm]; unfold FecV.buf_size; rw [← Nat.mul_assoc, Nat.mul_div_cancel _ hw]
  have hle : n * m ≤ n * (m * E.base.pkt_size) := Nat.mul_le_mul_left _ (Nat.le_mul_of_pos_right _ hp)
  unfold describes Counters.printed
  simp only [e1, e2, Finset.sum_const, Finset.card_range, smul_eq_mul, Nat.mod_eq_of_lt hn', Nat.mod_eq_of_lt hs, Nat.mod_eq_of_lt (lt_of_le_of_lt hle hs)]
  rw [if_pos (by omega), if_pos (by omega), Nat.mul_div_cancel_left _ hn, Nat.mul_div_cancel_left _ hn]
  exact ⟨rfl, rfl⟩

/-! ## Fermat codes -/

/-- C75 for the Fermat codes: every object, whatever it did before, encodes streams of `L` bytes each and then counts `L` divided by the size of a packet,
rounded up. -/
theorem C75_fnt_encode {c : FntCode} (hc : c.Ok) {pkt : Nat} (hpkt : 0 < pkt) {R : RsFntObj} {C : CtxB} {H : Heap} (hr : c.Reachable pkt R C H)
    {data outs : Array (List Nat)} {props : Array Properties} {L : Nat} (hs : data.size = c.k) (hb : ∀ i, i < c.k → ∀ x ∈ gt data i, x < 256)
    (hL : ∀ i, i < c.k → (gt data i).length = L) (ho : outs.size = c.nOut) (hp : props.size = c.nOut) (junk : Nat → Nat → Nat) (clk : Nat → Timing) (st : Stats) :
    ∃ r, (R.fecV c.b).encode_streams_verticalS C data outs props junk H clk st =
      .ok (r, { st with enc := describes (packets L (pkt * c.w)) (fun _ => pkt * c.w) clk }) := by
  obtain ⟨e1, e2, e3, e4⟩ := reachable_buf hc hpkt hr
  have hw0 : 0 < c.w := by rcases hc.hw with h | h <;> omega
  have hk : 0 < c.k := hc.hk
  have hj : LastShort (pkt * c.w) c.k (fun i => (gt data i).length) (c.k - 1) :=
    ⟨by omega, fun i hi => by simp only [hL i hi, hL (c.k - 1) (by omega), le_refl], fun i h1 h2 => by omega⟩
  obtain ⟨_, _, _, o, C', H', e, _⟩ := C63_encode_partial hc hpkt hr hs hb ho hp junk hj
  have := C75_encode_packets (R.fecV c.b) (by rw [e1]; exact Nat.mul_pos hpkt hw0) e (j := c.k - 1) (by rw [e1, e2]; exact hj) clk st
  rw [e1, hL (c.k - 1) (by omega)] at this
  exact ⟨_, this⟩

/-! ### concrete cases -/

/-- 20 bytes in packets of 8 words of one byte: three operations, of which one took 80 cycles and two 160; 10, 20 and 20 cycles a byte -/
example : describes (packets 20 8) (fun _ => 8) (fun i => ⟨2 ^ 64 - 20, if i = 0 then 60 else 140, 5⟩) = ⟨50, 3, 15⟩ := by decide +kernel

/-- what `C75_fnt_encode` says of a new object of a systematic code of 3 data fragments and 2 parities -/
example : ∃ R C H r, code1.Reachable 8 R C H ∧ (R.fecV code1.b).encode_streams_verticalS C #[List.replicate 20 1, List.replicate 20 2, List.replicate 20 255]
    #[[], []] #[.empty, .empty] (fun _ _ => 7) H (fun _ => ⟨100, 180, 5⟩) ⟨⟨1, 2, 3⟩, ⟨4, 5, 6⟩⟩ = .ok (r, ⟨⟨30, 3, 15⟩, ⟨4, 5, 6⟩⟩) := by
  obtain ⟨H, R, e⟩ := C23_new code1_ok (simd := none) (by simp [FntCode.Builds]) 8 (fun _ => 0) (fun _ _ => 0) #[]
  have hr : code1.Reachable 8 R _ H := .new ⟨none, by simp [FntCode.Builds], _, _, _, e⟩
  obtain ⟨r, h⟩ := C75_fnt_encode code1_ok (by decide) hr
    (data := #[List.replicate 20 1, List.replicate 20 2, List.replicate 20 255]) (outs := #[[], []]) (props := #[.empty, .empty]) (L := 20)
    rfl (by decide +kernel) (by decide +kernel) rfl rfl (fun _ _ => 7) (fun _ => ⟨100, 180, 5⟩) ⟨⟨1, 2, 3⟩, ⟨4, 5, 6⟩⟩
  exact ⟨R, _, H, r, hr, h⟩

/-- the figure printed after decoding the same packets is 8 times too large (`C75_decode_cycles_inflated`) -/
example : (describes 3 (fun _ => 8) (fun _ => ⟨100, 180, 5⟩)).printed = 10 ∧ (describes 3 (fun _ => 1) (fun _ => ⟨100, 180, 5⟩)).printed = 80 := by
  decide +kernel

end Quad.Props
