import Verif.Lemmas.Driver
import Verif.Lemmas.FntCode
import Verif.Lemmas.FecSelect
import Verif.Lemmas.FecUb
import Verif.Props.Fec
import Verif.Props.FecVert

/-!
# The codes the program uses
-/

namespace Quad.Driver
open Quad.Spec

theorem wordAt_take {w T t : Nat} {l : List Nat} (ht : t < T) : wordAt w (l.take (T * w)) t = wordAt w l t := by
  unfold wordAt
  have h : (t + 1) * w ≤ T * w := Nat.mul_le_mul_right w ht
  rw [Nat.add_mul] at h
  rw [List.drop_take, List.take_take, Nat.min_eq_left (by omega)]

theorem codes_horizontal {Γ : Type} {E : Fec Γ} {st : Array Nat → Nat → Nat} {mk : Array Nat → Nat → Option Nat} {A : Array Nat → Prop}
    (H : E.HSpec st mk A) (hA : ∀ ids, A ids) (hmk : ∀ a f v, mk a f = some v → v < 2 ^ 32) {data : Array (List Nat)} {T : Nat}
    (hs : data.size = E.base.n_data) (hby : ∀ i, i < E.base.n_data → ∀ x ∈ gt data i, x < 256)
    (hrow : Rows E.base.word_size E.base.n_data (gt data) T) (hT : T ≤ 2 ^ 64) :
    ∃ frags fprops, ∀ mem mem', Codes (Coder.horizontal E mem mem') (fun _ => True) E.base.sys data
      (data.map (fun s => s.take (T * E.base.word_size))) frags fprops ∧
      Refuses (Coder.horizontal E mem mem') (fun _ => True) E.base.sys data frags fprops := by
  set fr : Array (List Nat) := Array.ofFn (fun f : Fin E.base.n_outputs =>
    flat E.base.word_size (fun t => st (rowAt E.base.word_size E.base.n_data (gt data) t) f) T) with hfr
  set pr : Array Properties := Array.ofFn (fun f : Fin E.base.n_outputs =>
    (⟨marksOf (fun t => mk (rowAt E.base.word_size E.base.n_data (gt data) t) f) T⟩ : Properties)) with hpr
  have gfr : ∀ f, f < E.base.n_outputs → gt fr f = flat E.base.word_size (fun t => st (rowAt E.base.word_size E.base.n_data (gt data) t) f) T :=
    fun f hf => gt_ofFn hf
  have gpr : ∀ f, f < E.base.n_outputs → gt pr f = ⟨marksOf (fun t => mk (rowAt E.base.word_size E.base.n_data (gt data) t) f) T⟩ :=
    fun f hf => gt_ofFn hf
  have hmarks : ∀ f, f < E.base.n_outputs → ∀ it ∈ (gt pr f).props, it.1 < 2 ^ 64 ∧ it.2 < 2 ^ 32 := by
    intro f hf it hit
    rw [gpr f hf] at hit
    obtain ⟨h1, h2⟩ := mem_marksOf.1 hit
    exact ⟨by omega, hmk _ _ _ h2⟩
  refine ⟨fr, pr, fun mem mem' => ⟨⟨hs, by simp [hfr, Coder.horizontal], by simp [hpr, Coder.horizontal], ?_, hmarks, ?_, ?_⟩,
    ⟨hs, by simp [hfr, Coder.horizontal], hmarks, ?_, ?_⟩⟩⟩
  · intro f i hf hi
    change f < E.base.n_outputs at hf
    change i < E.base.n_data at hi
    rw [gfr f hf, gt_map (by omega), List.length_take, Nat.min_eq_left (hrow.full i hi)]
    exact flat_length ..
  · intro s _ d hd hdi ps hps
    change ps.size = E.base.n_outputs at hps
    change d.size = E.base.n_data at hd
    change ∀ i, i < E.base.n_data → _ at hdi
    have hdi' : ∀ i, i < E.base.n_data → gt d i = gt data i ∨ gt d i = (gt data i).take (T * E.base.word_size) := by
      intro i hi
      rcases hdi i hi with h | h
      · exact .inl h
      · rw [gt_map (by omega)] at h; exact .inr h
    have hrow' : Rows E.base.word_size E.base.n_data (gt d) T := by
      refine ⟨fun i hi => ?_, ?_⟩
      · rcases hdi' i hi with h | h
        · rw [h]; exact hrow.full i hi
        · rw [h, List.length_take]; exact Nat.le_min.2 ⟨le_rfl, hrow.full i hi⟩
      · obtain ⟨i, hi, hl⟩ := hrow.last
        refine ⟨i, hi, ?_⟩
        rcases hdi' i hi with h | h
        · rw [h]; exact hl
        · rw [h, List.length_take]; omega
    have hra : ∀ t, t < T → rowAt E.base.word_size E.base.n_data (gt d) t = rowAt E.base.word_size E.base.n_data (gt data) t := by
      intro t ht
      unfold rowAt
      congr 1
      funext i
      rcases hdi' i i.2 with h | h
      · rw [h]
      · rw [h, wordAt_take ht]
    obtain ⟨o, p, e, s1, s2, q⟩ := Fec.encode_streams_horizontal_spec H (data := d) (outs := Array.replicate E.base.n_outputs [])
      (props := ps) (mem s) (T := T) hd (by simp) hps
      (fun i hi x hx => by
        rcases hdi' i hi with h | h
        · rw [h] at hx; exact hby i hi x hx
        · rw [h] at hx; exact hby i hi x (List.mem_of_mem_take hx)) hrow'
    have eo : o = fr := by
      refine gt_ext (by simp [hfr, s1]) (fun f hf => ?_)
      have hf' : f < E.base.n_outputs := by omega
      rw [(q f hf').1, gfr f hf', gt_replicate hf', List.nil_append]
      exact flat_congr (fun t ht => by rw [hra t ht])
    have ep : p = pr := by
      refine gt_ext (by simp [hpr, s2]) (fun f hf => ?_)
      have hf' : f < E.base.n_outputs := by omega
      rw [(q f hf').2, gpr f hf']
      exact congrArg Properties.mk (marksOf_congr (fun t ht => by rw [hra t ht]))
    refine ⟨Nat.succ s, ?_, trivial⟩
    show (E.encode_streams_horizontal d (Array.replicate E.base.n_outputs []) ps (mem s) >>= _) = _
    rw [e, ok_bind, eo, ep]
    rfl
  · intro s _ datas pars outs props h1 h2 h3 h4 h5 h6 h7
    change datas.size = E.base.n_data at h1
    change pars.size = E.base.n_outputs at h2
    change props.size = E.base.n_outputs at h3
    change outs.size = E.base.n_data at h4
    change ∀ i t, i < E.base.n_data → _ at h5
    change ∀ f t, f < E.base.n_outputs → _ at h6
    change avail datas = E.base.n_data ∨ E.base.n_data ≤ _ at h7
    obtain ⟨res, er, hr⟩ := Fec.decode_streams_horizontal_spec H (D := gt data) (T := T) (datas := datas) (pars := pars)
      (outs := outs) (props := props) (mem' s) hby hrow (fun _ => h1) h2 h3 h4
      (fun _ i t hi => by
        refine h5 i t ?_ hi
        by_contra c
        rw [gt, Array.getD_eq_getD_getElem?, Array.getElem?_eq_none (by omega)] at hi
        cases hi)
      (fun f t hf hi => by
        obtain ⟨q1, q2⟩ := h6 f t hf hi
        exact ⟨by rw [q1, gfr f hf], by rw [q2, gpr f hf]⟩)
      (fun _ _ => hA _)
    refine ⟨res.1, res.2, Nat.succ s, ?_, trivial, ?_⟩
    · show (E.decode_streams_horizontal datas pars props outs (mem' s) >>= _) = _
      rw [er]; rfl
    · intro hlt
      change avail datas < E.base.n_data at hlt
      have hge : E.base.n_data ≤ (if E.base.sys then avail datas else 0) + avail pars := by
        rcases h7 with h | h
        · omega
        · exact h
      have hdl : (E.base.dataList (datas.map Option.isSome)).length = if E.base.sys then avail datas else 0 := by
        unfold FecBase.dataList
        split
        · exact present_eq_avail datas h1
        · rfl
      have hpl : (present (pars.map Option.isSome) E.base.n_outputs).length = avail pars := present_eq_avail pars h2
      rw [hdl, hpl, if_neg (by have := H.kpos; split <;> omega), if_neg (by omega)] at hr
      refine ⟨hr.1, hr.2.1, fun i hi => ?_⟩
      change i < E.base.n_data at hi
      rw [hr.2.2 i hi, gt_map (by omega)]
  · intro s _ d hd hdi hem
    change d.size = E.base.n_data at hd
    change ∀ i, i < E.base.n_data → _ at hdi
    change ∃ i, i < E.base.n_data ∧ _ at hem
    obtain ⟨o, p, e, s1, s2, q⟩ := Fec.encode_streams_horizontal_spec H (data := d) (outs := Array.replicate E.base.n_outputs [])
      (props := Array.replicate E.base.n_outputs .empty) (mem s) (T := 0) hd (by simp) (by simp)
      (fun i hi x hx => by
        rcases hdi i hi with h | h
        · rw [h] at hx; exact hby i hi x hx
        · rw [h] at hx; cases hx)
      ⟨fun i _ => by simp, by
        obtain ⟨i, hi, h⟩ := hem
        exact ⟨i, hi, by rw [h]; have := H.w.pos; simp; omega⟩⟩
    have eo : o.map some = Array.replicate E.base.n_outputs (some []) := by
      refine gt_ext (by simp [s1]) (fun f hf => ?_)
      have hf' : f < E.base.n_outputs := by simpa [s1] using hf
      rw [gt_map (by omega), (q f hf').1, gt_replicate hf', gt_replicate hf', flat_zero]
      rfl
    have ep : p = Array.replicate E.base.n_outputs .empty := by
      refine gt_ext (by simp [s2]) (fun f hf => ?_)
      have hf' : f < E.base.n_outputs := by omega
      rw [(q f hf').2, gt_replicate hf', marksOf_zero]
      rfl
    refine ⟨Nat.succ s, ?_⟩
    show (E.encode_streams_horizontal d (Array.replicate E.base.n_outputs []) (Array.replicate E.base.n_outputs .empty) (mem s) >>= _) = _
    rw [e, ok_bind, ep]
    show Except.ok (o.map some, _, _) = _
    rw [eo]
    rfl
  · intro s _ datas pars outs props h1 h2 h3 h4 hfew
    refine ⟨Nat.succ s, ?_, trivial⟩
    show (E.decode_streams_horizontal datas pars props outs (mem' s) >>= _) = _
    rw [Props.C26_horizontal_too_few E (mem' s) H.kpos h1 h2 h3 h4 hfew]
    rfl

/-- reading a packet of each stream when those that are too short are empty, and there is one -/
theorem readPkts_empty {buf n rb : Nat} {ins : Array (Option (List Nat))} {wc : Array (Array Nat)} (hb : 0 < buf) (hi : ins.size = n) (hw : wc.size = n)
    (D : Nat → List Nat) (hD : ∀ i, i < n → gt ins i = some (D i)) (hs : ∀ i, i < n → D i = [] ∨ buf ≤ (D i).length)
    (he : ∃ i, i < n ∧ D i = []) :
    ∃ ins' wc' cont, readPkts buf n 0 (fun i => .ok i) (ins, wc, rb, true) = .ok (ins', wc', 0, cont) := by
  unfold readPkts
  obtain ⟨⟨ins', wc', rb', cont'⟩, e, _, _, _, h⟩ := forN_inv (n := n) (s := (ins, wc, rb, true)) (f := fun i (s : Array (Option (List Nat)) × Array (Array Nat) × Nat × Bool) => do
      let j ← (Except.ok i : Res Nat)
      let st ← rd s.1 j
      match st with
      | none => ub
      | some st => do
        let r := readPkt buf st
        let wc ← wr s.2.1 (0 + i) r.1
        let streams ← wr s.1 j (some r.2.1)
        match r.2.2 with
        | some g => pure (streams, wc, g, false)
        | none => pure (streams, wc, s.2.2.1, s.2.2.2))
    (I := fun t s => s.1.size = n ∧ s.2.1.size = n ∧ (∀ i, t ≤ i → i < n → gt s.1 i = some (D i)) ∧ ((∃ i, i < t ∧ D i = []) → s.2.2.1 = 0))
    ⟨hi, hw, fun i _ h => hD i h, fun ⟨i, h, _⟩ => by omega⟩ (by
      rintro t ⟨is, w, r, c⟩ ht ⟨h1, h2, h3, h4⟩
      simp only at h1 h2 h3 h4
      simp only [ok_bind]
      rw [rd_gt (by omega), ok_bind, h3 t le_rfl ht]
      simp only
      rw [wr_ok (by omega), ok_bind, wr_ok (by omega), ok_bind]
      have hkeep : ∀ (v : Option (List Nat)) i, t + 1 ≤ i → i < n → gt (is.setIfInBounds t v) i = some (D i) := by
        intro v i h h'
        rw [gt_set (by omega), if_neg (by omega)]
        exact h3 i (by omega) h'
      by_cases hz : D t = []
      · have hr : (readPkt buf (D t)).2.2 = some 0 := by
          unfold readPkt
          rw [hz, if_pos (by simpa using hb)]; rfl
        rw [hr]
        exact ⟨_, rfl, by simpa using h1, by simpa using h2, hkeep _, fun _ => rfl⟩
      · have hl := (hs t ht).resolve_left hz
        have hr : (readPkt buf (D t)).2.2 = none := by
          unfold readPkt
          rw [if_neg (by omega)]
        rw [hr]
        refine ⟨_, rfl, by simpa using h1, by simpa using h2, hkeep _, fun ⟨i, h, h'⟩ => h4 ⟨i, ?_, h'⟩⟩
        rcases Nat.lt_succ_iff_lt_or_eq.1 h with h | rfl
        · exact h
        · exact absurd h' hz)
  simp only at h
  rw [h he] at e
  exact ⟨ins', wc', cont', e⟩

/-- coding streams of which some are empty and the others have at least a packet writes nothing -/
theorem encode_empty {E : FecV} {C : CtxB} {H : Heap} {d : Array (List Nat)} (junk : Nat → Nat → Nat) (hb : 0 < E.buf_size)
    (hd : d.size = E.base.n_data) (hs : ∀ i, i < E.base.n_data → gt d i = [] ∨ E.buf_size ≤ (gt d i).length)
    (he : ∃ i, i < E.base.n_data ∧ gt d i = []) :
    ∃ H', E.encode_streams_vertical C d (Array.replicate E.base.n_outputs []) (Array.replicate E.base.n_outputs .empty) junk H =
      .ok (Array.replicate E.base.n_outputs (some []), Array.replicate E.base.n_outputs .empty, C, H') := by
  unfold FecV.encode_streams_vertical
  simp only [cassert, hd, Array.size_replicate, decide_true, if_true, ok_bind]
  obtain ⟨H1, H2⟩ : ∃ x : Heap × Bufs, Bufs.full junk H E.base.n_data E.base.pkt_size = x := ⟨_, rfl⟩
  rw [H2]
  obtain ⟨H3, H4⟩ : ∃ x : Heap × Bufs, Bufs.full junk H1.1 E.get_n_outputs E.base.pkt_size = x := ⟨_, rfl⟩
  simp only [H4]
  obtain ⟨is, wc, cont, e⟩ := readPkts_empty (rb := E.buf_size) (ins := d.map some) (wc := freshChars junk E.base.n_data E.buf_size) hb
    (by simpa using hd) (freshChars_spec junk _ _).1 (gt d) (fun i hi => by rw [gt_map (by omega)]) hs he
  rw [FecV.encLoop]
  simp only
  rw [e, ok_bind]
  refine ⟨H3.1, ?_⟩
  simp [Properties.clear, Properties.empty, pure, Except.pure]

theorem codes_fnt {c : FntCode} (hc : c.Ok) {data : Array (List Nat)} {T : Nat} (hd : c.Data data T) (hT : T ≤ 2 ^ 64) :
    ∃ frags fprops, c.Encoded data frags fprops ∧ ∀ pkt R C H, 0 < pkt → c.Reachable pkt R C H → ∀ mem junk junk',
      Codes (Coder.vertical (R.fecV c.b) mem junk junk') (fun s => c.Reachable pkt R s.1 s.2.1) c.sys data data frags fprops ∧
      (pkt ≤ T → Refuses (Coder.vertical (R.fecV c.b) mem junk junk') (fun s => c.Reachable pkt R s.1 s.2.1) c.sys data frags fprops) := by
  obtain ⟨p, n, _, g, r⟩ := FntCode.exists_root hc
  obtain ⟨H0, R0, e0, _⟩ := r.new none (by simp [FntCode.Builds]) 1 (fun _ => 0) (fun _ _ => 0) #[]
  have hn0 : c.New 1 R0 H0 := ⟨none, by simp [FntCode.Builds], _, _, _, e0⟩
  obtain ⟨o, p', e', H', e, _, q2, q3, q4⟩ := (hn0.inv r).encode_streams (by omega) hd (fun _ _ => 0) (outs := Array.replicate c.nOut [])
    (props := Array.replicate c.nOut .empty) (by simp) (by simp)
  have ho : o = (o.map (fun x => x.getD [])).map some := by
    apply gt_ext (by simp)
    intro i hi
    rw [gt_map (by simpa using hi), gt_map hi, (q4 i (by omega)).1]
    rfl
  have hE : c.Encoded data (o.map (fun x => x.getD [])) p' := ⟨1, R0, H0, _, _, _, by omega, hn0, by rw [← ho]; exact e⟩
  have hI := hE.isCode hd r
  refine ⟨o.map (fun x => x.getD []), p', hE, fun pkt R C H hpkt hr mem junk junk' => ?_⟩
  have hk : (R.fecV c.b).base.n_data = c.k := (hr.inv hpkt r).k
  have hout : (R.fecV c.b).base.n_outputs = c.nOut := (hr.inv hpkt r).out
  have hk' : (Coder.vertical (R.fecV c.b) mem junk junk').n_data = c.k := hk
  have ho' : (Coder.vertical (R.fecV c.b) mem junk junk').n_outputs = c.nOut := hout
  have hmarks : ∀ f, f < c.nOut → ∀ it ∈ (gt p' f).props, it.1 < 2 ^ 64 ∧ it.2 < 2 ^ 32 := by
    intro f hf it hit
    rw [hI.prop f hf] at hit
    obtain ⟨h1, h2⟩ := mem_marksOf.1 hit
    refine ⟨by omega, ?_⟩
    unfold FntCode.mark at h2
    split at h2
    · injection h2 with h2; rw [← h2]; decide
    · cases h2
  refine ⟨⟨hd.size.trans hk'.symm, by rw [ho']; exact hI.fsize, by rw [ho']; exact hI.psize, ?_, by rw [ho']; exact hmarks, ?_, ?_⟩,
    fun hpT => ⟨hd.size.trans hk'.symm, by rw [ho']; exact hI.fsize, by rw [ho']; exact hmarks, ?_, ?_⟩⟩
  · rw [hk', ho']
    intro f i hf hi
    rw [hI.frag f hf, hd.len i hi]
    exact flat_length ..
  · rw [hk', ho']
    intro s hs d hsz hdi ps hps
    have ed : d = data := gt_ext (by rw [hsz, hd.size]) (fun i hi => by rcases hdi i (by omega) with h | h <;> exact h)
    subst ed
    obtain ⟨o1, p1, C1, H1, e1, _, r2, r3, r4⟩ := (hs.inv hpkt r).encode_streams hpkt hd (junk s.2.2) (outs := Array.replicate c.nOut [])
      (props := ps) (by simp) hps
    have eo : o1 = o := gt_ext (by omega) (fun i hi => by rw [(r4 i (by omega)).1, (q4 i (by omega)).1])
    have ep : p1 = p' := gt_ext (by omega) (fun i hi => by rw [(r4 i (by omega)).2, (q4 i (by omega)).2])
    refine ⟨(C1, H1, s.2.2 + 1), ?_, hs.encode (L := T * c.w) ⟨hd.size, hd.bytes, hd.len⟩ e1⟩
    show ((R.fecV c.b).encode_streams_vertical s.1 d _ _ (junk s.2.2) s.2.1 >>= _) = _
    rw [e1, ← ho, ← eo, ← ep]
    rfl
  · rw [hk', ho']
    intro s hs datas pars outs props h1 h2 h3 h4 h5 h6 h7
    have hsv : c.Surviving data (o.map (fun x => x.getD [])) p' datas pars props := ⟨fun _ => h1, h2, h3, fun _ i t hi => h5 i t hi, h6⟩
    obtain ⟨v, o1, H1, e1, _, q⟩ := (hs.inv hpkt r).decode_streams hpkt hd hI hsv (mem s.2.2) (junk' s.2.2) h4
    refine ⟨v, o1, (s.1, H1, s.2.2 + 1), ?_, hs.decode hd hE hsv e1, ?_⟩
    · show ((R.fecV c.b).decode_streams_vertical datas pars props outs (mem s.2.2) (junk' s.2.2) s.2.1 >>= _) = _
      rw [e1]; rfl
    · intro hlt
      have hge : c.k ≤ (if c.sys then avail datas else 0) + avail pars := by
        rcases h7 with h | h
        · omega
        · exact h
      rw [if_neg (by omega), if_neg (by omega)] at q
      exact q
  · rw [hk', ho']
    intro s hs d hsz hdi hem
    have hw : (R.fecV c.b).base.word_size = c.w := (hr.inv hpkt r).w
    have hp : (R.fecV c.b).base.pkt_size = pkt := (hr.inv hpkt r).pkt
    have hbuf : (R.fecV c.b).buf_size = pkt * c.w := by unfold FecV.buf_size; rw [hw, hp]
    have hwp : 0 < c.w := by rcases hc.hw with h | h <;> omega
    obtain ⟨H1, e1⟩ := encode_empty (E := R.fecV c.b) (C := s.1) (H := s.2.1) (d := d) (junk s.2.2) (by rw [hbuf]; positivity) (by rw [hk]; exact hsz)
      (fun i hi => by
        rw [hk] at hi
        rcases hdi i hi with h | h
        · right
          rw [h, hd.len i hi, hbuf]
          exact Nat.mul_le_mul_right _ hpT
        · exact .inl h)
      (by rw [hk]; exact hem)
    rw [hout] at e1
    refine ⟨(s.1, H1, s.2.2 + 1), ?_⟩
    show ((R.fecV c.b).encode_streams_vertical s.1 d _ _ (junk s.2.2) s.2.1 >>= _) = _
    rw [e1]
    rfl
  · rw [hk', ho']
    intro s hs datas pars outs props h1 h2 h3 h4 hfew
    have hsys : (R.fecV c.b).base.sys = c.sys := (hr.inv hpkt r).sys
    refine ⟨(s.1, s.2.1, s.2.2 + 1), ?_, hs⟩
    show ((R.fecV c.b).decode_streams_vertical datas pars props outs (mem s.2.2) (junk' s.2.2) s.2.1 >>= _) = _
    rw [Props.C26_vertical_too_few (R.fecV c.b) (mem s.2.2) (junk' s.2.2) s.2.1 (by rw [hk]; omega) (by rw [hk]; exact h1) (by rw [hout]; exact h2)
      (by rw [hout]; exact h3) (by rw [hk]; exact h4) (by rw [hk, hsys]; exact hfew)]
    rfl

end Quad.Driver
