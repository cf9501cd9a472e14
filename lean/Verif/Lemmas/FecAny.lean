import Verif.Lemmas.FecBlock
import Verif.Spec.Fnt

/-!
Decoding of vertical streams with any contents and any properties
-/

namespace Quad
open Spec (picked)

/-- the streams of all fragments, in the order of their numbers -/
def allFrags (sys : Bool) (datas pars : Array (Option (List Nat))) : Array (Option (List Nat)) := if sys then datas ++ pars else pars

theorem ids_picked' (B : FecBase) {dmask pmask : Array Bool} {fr : Array (Option (List Nat))}
    (hz : fr.size = if B.sys then B.n_data + B.n_outputs else B.n_outputs)
    (hd : B.sys = true → ∀ i, i < B.n_data → gt dmask i = (gt fr i).isSome)
    (hp : ∀ f, f < B.n_outputs → gt pmask f = (gt fr (if B.sys then B.n_data + f else f)).isSome) :
    B.dataList dmask ++ (B.parList dmask pmask).map (fun i => if B.sys then B.n_data + i else i) = picked B.n_data fr := by
  unfold FecBase.parList FecBase.dataList picked present
  rw [hz]
  by_cases hs : B.sys = true
  · simp only [hs, if_true] at hp ⊢
    have e1 : (List.range B.n_data).filter (fun i => gt dmask i) = (List.range B.n_data).filter (fun i => (gt fr i).isSome) :=
      List.filter_congr (fun i hi => hd hs i (List.mem_range.mp hi))
    have e2 : (List.range B.n_outputs).filter (fun i => gt pmask i) = (List.range B.n_outputs).filter (fun i => (gt fr (B.n_data + i)).isSome) :=
      List.filter_congr (fun i hi => hp i (List.mem_range.mp hi))
    rw [e1, e2, List.range_add, List.filter_append, List.take_append,
      List.take_of_length_le (i := B.n_data) (l := (List.range B.n_data).filter (fun i => (gt fr i).isSome)) (by
        have := List.length_filter_le (fun i => (gt fr i).isSome) (List.range B.n_data)
        rwa [List.length_range] at this), List.map_take]
    congr 2
    rw [List.filter_map]
    rfl
  · have e2 : (List.range B.n_outputs).filter (fun i => gt pmask i) = (List.range B.n_outputs).filter (fun i => (gt fr i).isSome) :=
      List.filter_congr (fun i hi => by rw [hp i (List.mem_range.mp hi), if_neg hs])
    simp only [hs, Bool.false_eq_true, if_false, List.nil_append, List.length_nil, Nat.sub_zero, e2, List.map_id']

theorem ids_picked (B : FecBase) {datas pars : Array (Option (List Nat))} (h1 : B.sys = true → datas.size = B.n_data)
    (h2 : pars.size = B.n_outputs) :
    B.dataList (datas.map Option.isSome) ++ (B.parList (datas.map Option.isSome) (pars.map Option.isSome)).map
      (fun i => if B.sys then B.n_data + i else i) = picked B.n_data (allFrags B.sys datas pars) := by
  refine ids_picked' B ?_ (fun hs i hi => ?_) (fun f hf => ?_)
  · unfold allFrags
    by_cases hs : B.sys = true
    · rw [if_pos hs, if_pos hs, Array.size_append, h1 hs, h2]
    · rw [if_neg hs, if_neg hs, h2]
  · unfold allFrags
    rw [gt_map (by rw [h1 hs]; exact hi), if_pos hs, gt_append, if_pos (by rw [h1 hs]; exact hi)]
  · unfold allFrags
    rw [gt_map (by omega)]
    by_cases hs : B.sys = true
    · rw [if_pos hs, if_pos hs, gt_append, h1 hs, if_neg (by omega), Nat.add_sub_cancel_left]
    · rw [if_neg hs, if_neg hs]

namespace FecV
variable {E : FecV} {st : Array Nat → Nat → Nat} {mk : Array Nat → Nat → Option Nat} {b0 : Nat} {Live : CtxB → Heap → Prop}
  {val : Array Nat → (Nat → Nat) → Nat → Nat} {sy : Array Nat → Nat → Nat → Nat → Nat}
  {eqv : Nat → Nat → Prop}

/-- decoding of vertical streams with any contents -/
theorem decode_streams_vertical_any (hE : E.VSpec st mk b0 Live) {props : Array Properties} (hA : E.ASpecG props sy val eqv b0 Live) (hpkt : 0 < E.base.pkt_size) {C0 : CtxB} {H : Heap}
    (hL : Live C0 H) {T : Nat}
    {datas pars outs : Array (Option (List Nat))} (mem : Nat → Nat) (junk : Nat → Nat → Nat)
    (h1 : E.base.sys = true → datas.size = E.base.n_data) (h2 : pars.size = E.base.n_outputs)
    (h3 : props.size = E.base.n_outputs) (h4 : outs.size = E.base.n_data)
    (hfr : ∀ i s, gt (allFrags E.base.sys datas pars) i = some s → s.length = T * E.base.word_size ∧ ∀ x ∈ s, x < 256) :
    ∃ res, E.decode_streams_vertical datas pars props outs mem junk H = .ok res ∧ Live C0 res.2.2 ∧
      (if (E.base.dataList (datas.map Option.isSome)).length = E.base.n_data then res = (true, outs, H)
       else if (E.base.dataList (datas.map Option.isSome)).length +
          (present (pars.map Option.isSome) E.base.n_outputs).length < E.base.n_data then res = (false, outs, H)
       else res.1 = true ∧ res.2.1.size = E.base.n_data ∧
          let ids := (picked E.base.n_data (allFrags E.base.sys datas pars)).toArray
          ValidIds E.base.n_data (if E.base.sys then E.base.n_data + E.base.n_outputs else E.base.n_outputs) ids ∧
          ∀ i, i < E.base.n_data → gt res.2.1 i = (gt outs i).map (fun s => s ++ flat E.base.word_size (fun t =>
            val ids (fun j => sy ids
              (wordAt E.base.word_size ((gt (allFrags E.base.sys datas pars) (gt ids j)).getD []) t) j t) i) T)) := by
  have hk := hE.kpos
  have hwp := hE.w.pos
  have hsel := E.base.selectFragments_spec hk (data := datas.map Option.isSome) (parities := pars.map Option.isSome) mem
    (fun h => by simp [h1 h]) (by simp [h2])
  have hred : ∀ (f : Select → Res (Bool × Array (Option (List Nat)) × Heap)),
      (do
        if E.base.sys then cassert (decide (datas.size = E.base.n_data)) else pure ()
        cassert (decide (pars.size = E.base.n_outputs))
        cassert (decide (props.size = E.base.n_outputs))
        cassert (decide (outs.size = E.base.n_data))
        let sel ← E.base.selectFragments (datas.map Option.isSome) (pars.map Option.isSome) mem
        f sel) = (E.base.selectFragments (datas.map Option.isSome) (pars.map Option.isSome) mem >>= f) := by
    intro f
    by_cases hs : E.base.sys = true
    · simp [hs, cassert, h1 hs, h2, h3, h4]
    · simp only [hs, Bool.false_eq_true, if_false, cassert, h2, h3, h4, decide_true, if_true]
      rfl
  have hgo : E.decode_streams_vertical datas pars props outs mem junk H =
      (E.base.selectFragments (datas.map Option.isSome) (pars.map Option.isSome) mem >>= fun sel =>
        match sel with
        | .allData => pure (true, outs, H)
        | .tooFew => pure (false, outs, H)
        | .use ids apar nd => do
          let ids := (ids.toList.mergeSort (fun x y => decide (x ≤ y))).toArray
          let (H, words) := Bufs.full junk H E.base.n_data E.base.pkt_size
          let (H, output) := Bufs.full junk H E.base.n_data E.base.pkt_size
          let (H, C, props) ← E.init_context_dec ids props E.base.pkt_size output mem junk H
          let (outs, H) ← E.decLoop words output ids apar nd props (maxLen datas + maxLen pars + 2) datas pars outs E.buf_size 0
            ⟨C, H, freshChars junk E.base.n_data E.buf_size, freshChars junk E.base.n_data E.buf_size⟩
          pure (true, outs, H)) := hred _
  rw [hgo, hsel, ok_bind]
  by_cases hall : (E.base.dataList (datas.map Option.isSome)).length = E.base.n_data
  · exact ⟨(true, outs, H), by rw [if_pos hall]; rfl, hL, by rw [if_pos hall]⟩
  by_cases hfew : (E.base.dataList (datas.map Option.isSome)).length +
      (present (pars.map Option.isSome) E.base.n_outputs).length < E.base.n_data
  · exact ⟨(false, outs, H), by rw [if_neg hall, if_pos hfew]; rfl, hL, by rw [if_neg hall, if_pos hfew]⟩
  rw [if_neg hall, if_neg hfew]
  have hc := chosen_spec E.base hall hfew
  rw [ids_picked E.base h1 h2] at hc ⊢
  generalize (picked E.base.n_data (allFrags E.base.sys datas pars)).toArray = ids at hc ⊢
  generalize (E.base.parList (datas.map Option.isSome) (pars.map Option.isSome)).toArray = apar at hc ⊢
  generalize (E.base.dataList (datas.map Option.isSome)).length = nd at hc hall hfew ⊢
  have hdm : ∀ i, i < nd → gt ids i < datas.size ∧ ∃ s, gt datas (gt ids i) = some s ∧ gt (allFrags E.base.sys datas pars) (gt ids i) = some s := by
    intro i hi
    obtain ⟨q1, q2, q3⟩ := hc.data i hi
    obtain ⟨q4, s, q5⟩ := Fec.isSome_mask q3
    refine ⟨q4, s, q5, ?_⟩
    unfold allFrags
    rw [if_pos q1, gt_append, if_pos q4, q5]
  have hpm : ∀ i, i < E.base.n_data - nd → gt apar i < pars.size ∧ ∃ s, gt pars (gt apar i) = some s ∧
      gt (allFrags E.base.sys datas pars) (gt ids (nd + i)) = some s := by
    intro i hi
    obtain ⟨q1, q2, q3⟩ := hc.par i hi
    obtain ⟨q4, s, q5⟩ := Fec.isSome_mask q2
    refine ⟨q4, s, q5, ?_⟩
    unfold allFrags
    rw [q3]
    by_cases hs : E.base.sys = true
    · rw [if_pos hs, if_pos hs, gt_append, h1 hs, if_neg (by omega), Nat.add_sub_cancel_left, q5]
    · rw [if_neg hs, if_neg hs, q5]
  have hex : ∀ i, i < E.base.n_data → ∃ s, gt (allFrags E.base.sys datas pars) (gt ids i) = some s := by
    intro i hi
    by_cases hn : i < nd
    · obtain ⟨_, s, _, h⟩ := hdm i hn; exact ⟨s, h⟩
    · obtain ⟨_, s, _, h⟩ := hpm (i - nd) (by omega)
      rw [show nd + (i - nd) = i by omega] at h
      exact ⟨s, h⟩
  have hS : ∀ i, i < E.base.n_data → ((gt (allFrags E.base.sys datas pars) (gt ids i)).getD []).length = T * E.base.word_size ∧
      ∀ x ∈ (gt (allFrags E.base.sys datas pars) (gt ids i)).getD [], x < 256 := by
    intro i hi
    obtain ⟨s, h⟩ := hex i hi
    rw [h]
    exact hfr _ s h
  obtain ⟨H1, H2, wm, om, e1, e2, hio, hL2⟩ := alloc_spec hE hL junk E.base.n_data
  obtain ⟨wz, wg⟩ := freshChars_spec junk E.base.n_data E.buf_size
  obtain ⟨Good, Own, H3, C, props', e3, g0, _, _, _, _, g1, g2, g3⟩ := hA.dec mem junk hL2 hc.valid h3 hio.wsz hio.osz hio.inj hio.ge hio.ok
  obtain ⟨outs', H4, C', t', e4, gf, so, ho⟩ := decLoop_spec hE hpkt (k := E.base.n_data) (nd := nd) (w := E.base.word_size) (T := T)
    (rows := fun t => Array.ofFn (fun i : Fin E.base.n_data => val ids (fun j => sy ids
              (wordAt E.base.word_size ((gt (allFrags E.base.sys datas pars) (gt ids j)).getD []) t) j t) i.1))
    (ids := ids) (apar := apar) (wm := wm) (om := om) (props := props')
    (Good := Good) (S := fun i => (gt (allFrags E.base.sys datas pars) (gt ids i)).getD []) (O := gt outs)
    (sys := E.base.sys) rfl rfl rfl hc.lt hc.ndz
    (fun i j hi hj he => hc.valid.inj i j (by have := hc.lt; omega) (by have := hc.lt; omega) he)
    (by rw [hc.valid.size]; exact hc.lt.le) hc.ainj hc.asz.ge
    (fun i hi => (hS i hi).1)
    (fun h => (g1 h).2) g2 (fun {off C H} _ hG hw => by
      obtain ⟨C', H', q1, q2, _, q4⟩ := g3 hG (fun i c hi hc => by rw [hw i c hi hc]; exact wordAt_lt (hS i hi).2 _)
      refine ⟨C', H', q1, q2, fun i c hi hc' => ?_⟩
      rw [hA.low (q4 i c hi hc'), gt_ofFn hi]
      simp only
      exact congrArg (· % _) (hA.congr (fun j hj => by rw [hw j c hj hc']))) hio.wsz hio.osz hio.inj (d := T) (off := 0) (fuel := maxLen datas + maxLen pars + 2)
    (datas := datas) (pars := pars) (outs := outs) (s := ⟨C, H3, freshChars junk E.base.n_data E.buf_size,
      freshChars junk E.base.n_data E.buf_size⟩) (by omega) (by omega) (by
      obtain ⟨_, s, q1, q2⟩ := hpm 0 (by have := hc.lt; omega)
      have h5 := maxLen_ge q1
      rw [(hfr _ s q2).1] at h5
      have : T * 1 ≤ T * E.base.word_size := Nat.mul_le_mul_left _ hwp
      omega)
    (fun i hi => by
      obtain ⟨q1, s, q2, q3⟩ := hdm i hi
      refine ⟨q1, ?_⟩
      rw [q2, q3]
      simp)
    (fun i hi => by
      obtain ⟨q1, s, q2, q3⟩ := hpm i hi
      refine ⟨q1, ?_⟩
      rw [q2, q3]
      simp)
    h4 (fun i hi => by simp [flat_zero]) g0 wz.ge wz.ge wg
  refine ⟨(true, outs', H4), ?_, (g1 gf).1, ?_⟩
  · simp only
    rw [hc.sorted, e1]
    simp only
    rw [e2]
    simp only
    rw [e3, ok_bind]
    simp only
    rw [e4, ok_bind]
    rfl
  · rw [if_neg hall, if_neg hfew]
    refine ⟨rfl, so, hc.valid, fun i hi => ?_⟩
    rw [ho i hi]
    congr 1
    funext s
    congr 1
    exact flat_congr (fun t _ => gt_ofFn hi)

/-- decoding of blocks with any contents; `fr` are the fragments that are not missing -/
theorem decode_blocks_vertical_any (hE : E.VSpec st mk b0 Live) {props : Array Properties} (hA : E.ASpecG props sy val eqv b0 Live) (hpkt : 0 < E.base.pkt_size) {C0 : CtxB} {H : Heap}
    (hL : Live C0 H) {T bytes : Nat} {datas pars : Array (Option (Array Nat))}
    {missing wanted : Array Bool} (mem : Nat → Nat) (junk : Nat → Nat → Nat)
    (hTb : bytes / E.base.word_size = T)
    (h1 : datas.size = E.base.n_data) (h2 : pars.size = E.base.n_outputs) (h3 : props.size = E.base.n_outputs)
    (hm : missing.size = if E.base.sys then E.base.n_data + E.base.n_outputs else E.base.n_outputs)
    (hwz : E.base.n_data ≤ wanted.size) {fr : Array (Option (List Nat))} (hz : fr.size = missing.size)
    (hmf : ∀ i, i < missing.size → (gt fr i).isSome = !gt missing i)
    (hdat : E.base.sys = true → ∀ i s, i < E.base.n_data → gt fr i = some s →
      ∃ d, gt datas i = some d ∧ T * E.base.word_size ≤ d.size ∧ d.toList.take (T * E.base.word_size) = s)
    (hpar : ∀ f s, f < E.base.n_outputs → gt fr (if E.base.sys then E.base.n_data + f else f) = some s →
      ∃ d, gt pars f = some d ∧ T * E.base.word_size ≤ d.size ∧ d.toList.take (T * E.base.word_size) = s)
    (hfr : ∀ i s, gt fr i = some s → ∀ x ∈ s, x < 256)
    (hwant : ∀ i, i < E.base.n_data → gt wanted i = true → ∃ d, gt datas i = some d ∧ T * E.base.word_size ≤ d.size)
    {pres pmask : Array Bool} (hpres : pres = missing.map (fun b => !b))
    (hpm : pmask = if E.base.sys then pres.extract E.base.n_data pres.size else pres) :
    ∃ res, E.decode_blocks_vertical datas pars props missing wanted bytes mem junk H = .ok res ∧ Live C0 res.2.2 ∧
      (if (E.base.dataList pres).length = E.base.n_data then res = (true, datas, H)
       else if (E.base.dataList pres).length + (present pmask E.base.n_outputs).length < E.base.n_data then
          res = (false, datas, H)
       else res.1 = true ∧ res.2.1.size = E.base.n_data ∧
          let ids := (picked E.base.n_data fr).toArray
          ValidIds E.base.n_data (if E.base.sys then E.base.n_data + E.base.n_outputs else E.base.n_outputs) ids ∧
          ∀ i, i < E.base.n_data → gt res.2.1 i = if gt wanted i then (gt datas i).map
            (fun d => (flat E.base.word_size (fun t => val ids (fun j => sy ids
              (wordAt E.base.word_size ((gt fr (gt ids j)).getD []) t) j t) i) T ++ d.toList.drop (T * E.base.word_size)).toArray)
            else gt datas i) := by
  have hk := hE.kpos
  have hwp := hE.w.pos
  have hpz : pres.size = missing.size := by rw [hpres, Array.size_map]
  have hpmz : pmask.size = E.base.n_outputs := by
    rw [hpm]
    by_cases hs : E.base.sys = true
    · rw [if_pos hs] at hm ⊢
      rw [Array.size_extract]; omega
    · rw [if_neg hs] at hm ⊢; omega
  have hpg : ∀ i, i < missing.size → gt pres i = !gt missing i := fun i hi => by rw [hpres, gt_map hi]
  have hpmg : ∀ f, f < E.base.n_outputs → gt pmask f = !gt missing (if E.base.sys then E.base.n_data + f else f) := by
    intro f hf
    rw [hpm]
    by_cases hs : E.base.sys = true
    · rw [if_pos hs] at hm ⊢
      rw [if_pos hs, gt_extract (by omega) (by omega), hpg _ (by omega)]
    · rw [if_neg hs] at hm ⊢
      rw [if_neg hs, hpg _ (by omega)]
  have hsel := E.base.selectFragments_spec hk (data := pres) (parities := pmask) mem
    (fun h => by rw [hpz, hm, if_pos h]; omega) (by omega)
  have hgo : E.decode_blocks_vertical datas pars props missing wanted bytes mem junk H =
      (E.base.selectFragments pres pmask mem >>= fun sel =>
        match sel with
        | .allData => pure (true, datas, H)
        | .tooFew => pure (false, datas, H)
        | .use ids apar nd => do
          let ids := (ids.toList.mergeSort (fun x y => decide (x ≤ y))).toArray
          let (H, words) := Bufs.full junk H E.base.n_data E.base.pkt_size
          let (H, output) := Bufs.full junk H E.base.n_data E.base.pkt_size
          let (H, C, props) ← E.init_context_dec ids props E.base.pkt_size output mem junk H
          let (datas, H) ← E.decBlockLoop words output ids apar nd pars props wanted T (T + 1) datas 0
            ⟨C, H, freshChars junk E.base.n_data E.buf_size, freshChars junk E.base.n_data E.buf_size⟩
          pure (true, datas, H)) := by
    unfold decode_blocks_vertical
    simp only [cassert, h1, h2, h3, decide_true, if_true, hTb, ← hpres, ← hpm]
    split <;> rfl
  rw [hgo, hsel, ok_bind]
  by_cases hall : (E.base.dataList pres).length = E.base.n_data
  · exact ⟨(true, datas, H), by rw [if_pos hall]; rfl, hL, by rw [if_pos hall]⟩
  by_cases hfew : (E.base.dataList pres).length + (present pmask E.base.n_outputs).length < E.base.n_data
  · exact ⟨(false, datas, H), by rw [if_neg hall, if_pos hfew]; rfl, hL, by rw [if_neg hall, if_pos hfew]⟩
  rw [if_neg hall, if_neg hfew]
  have hc := chosen_spec E.base hall hfew
  rw [ids_picked' E.base (fr := fr) (by rw [hz, hm]) (fun hs i hi => by
      have hi' : i < missing.size := by rw [hm, if_pos hs]; omega
      rw [hpg i hi', hmf i hi']) (fun f hf => by
      rw [hpmg f hf, hmf _ (by rw [hm]; split <;> omega)])] at hc ⊢
  generalize (picked E.base.n_data fr).toArray = ids at hc ⊢
  generalize (E.base.parList pres pmask).toArray = apar at hc ⊢
  generalize (E.base.dataList pres).length = nd at hc hall hfew ⊢
  have hsome : ∀ i, i < missing.size → gt missing i = false → ∃ s, gt fr i = some s := by
    intro i hi h
    have := hmf i hi
    rw [h] at this
    exact Option.isSome_iff_exists.mp (by simpa using this)
  have hpm' : ∀ i, i < E.base.n_data - nd → ∃ s d, gt fr (gt ids (nd + i)) = some s ∧ gt pars (gt apar i) = some d ∧
      T * E.base.word_size ≤ d.size ∧ d.toList.take (T * E.base.word_size) = s := by
    intro i hi
    obtain ⟨q1, q2, q3⟩ := hc.par i hi
    rw [hpmg _ q1] at q2
    obtain ⟨s, hs⟩ := hsome (if E.base.sys then E.base.n_data + gt apar i else gt apar i) (by rw [hm]; split <;> omega) (by simpa using q2)
    obtain ⟨d, hd⟩ := hpar _ s q1 hs
    exact ⟨s, d, by rw [q3, hs], hd⟩
  have hdm' : ∀ i, i < nd → ∃ s d, gt fr (gt ids i) = some s ∧ gt datas (gt ids i) = some d ∧ T * E.base.word_size ≤ d.size ∧
      d.toList.take (T * E.base.word_size) = s := by
    intro i hi
    obtain ⟨q1, q2, q3⟩ := hc.data i hi
    have q4 : gt ids i < missing.size := by rw [hm, if_pos q1]; omega
    rw [hpg _ q4] at q3
    obtain ⟨s, hs⟩ := hsome _ q4 (by simpa using q3)
    obtain ⟨d, hd⟩ := hdat q1 _ s q2 hs
    exact ⟨s, d, hs, hd⟩
  obtain ⟨H1, H2, wm, om, e1, e2, hio, hL2⟩ := alloc_spec hE hL junk E.base.n_data
  obtain ⟨wz, wg⟩ := freshChars_spec junk E.base.n_data E.buf_size
  obtain ⟨Good, Own, H3, C, props', e3, g0, _, _, _, _, g1, g2, g3⟩ := hA.dec mem junk hL2 hc.valid h3 hio.wsz hio.osz hio.inj hio.ge hio.ok
  obtain ⟨Sb, hSb1, hSb2⟩ : ∃ Sb : Nat → Array Nat, (∀ i, i < nd → gt datas (gt ids i) = some (Sb i)) ∧
      (∀ i, i < E.base.n_data - nd → gt pars (gt apar i) = some (Sb (nd + i))) := by
    refine ⟨fun i => if i < nd then (gt datas (gt ids i)).getD #[] else (gt pars (gt apar (i - nd))).getD #[], fun i hi => ?_,
      fun i hi => ?_⟩
    · obtain ⟨s, d, _, hd, _⟩ := hdm' i hi
      simp only [if_pos hi, hd]; rfl
    · obtain ⟨s, d, _, hd, _⟩ := hpm' i hi
      simp only [if_neg (show ¬ nd + i < nd by omega), Nat.add_sub_cancel_left, hd]; rfl
  have hSz : ∀ i, i < E.base.n_data → T * E.base.word_size ≤ (Sb i).size ∧ (Sb i).toList.take (T * E.base.word_size)
      = (gt fr (gt ids i)).getD [] ∧ ∀ x ∈ (gt fr (gt ids i)).getD [], x < 256 := by
    intro i hi
    by_cases hn : i < nd
    · obtain ⟨s, d, hs, hd, q⟩ := hdm' i hn
      rw [hSb1 i hn] at hd
      obtain rfl := Option.some.inj hd
      rw [hs]; exact ⟨q.1, q.2, hfr _ _ hs⟩
    · obtain ⟨s, d, hs, hd, q⟩ := hpm' (i - nd) (by omega)
      have := hSb2 (i - nd) (by omega)
      rw [show nd + (i - nd) = i by omega] at this hs
      rw [this] at hd
      obtain rfl := Option.some.inj hd
      rw [hs]; exact ⟨q.1, q.2, hfr _ _ hs⟩
  obtain ⟨datas', H4, C', t', e4, gf, so, ho⟩ := decBlockLoop_spec hE hpkt (k := E.base.n_data) (nd := nd) (w := E.base.word_size) (T := T)
    (rows := fun t => Array.ofFn (fun i : Fin E.base.n_data => val ids (fun j => sy ids
              (wordAt E.base.word_size ((gt fr (gt ids j)).getD []) t) j t) i.1)) (ids := ids) (apar := apar) (wm := wm) (om := om) (props := props')
    (datas0 := datas) (pars := pars) (wanted := wanted)
    (Good := Good) (S := Sb) (sys := E.base.sys) rfl rfl rfl hc.lt hc.ndz
    (by rw [hc.valid.size]; exact hc.lt.le) hc.asz.ge
    (fun i hi => ⟨(hc.data i hi).2.1, hSb1 i hi⟩)
    (fun i hi => ⟨by rw [h2]; exact (hc.par i hi).1, hSb2 i hi⟩) (fun i hi => (hSz i hi).1) hwz hwant
    (fun h => (g1 h).2) g2
    (fun {off C H} _ hG hw => by
      obtain ⟨C', H', q1, q2, _, q4⟩ := g3 hG (fun i c hi hc => by
        rw [hw i c hi hc, (hSz i hi).2.1]; exact wordAt_lt (hSz i hi).2.2 _)
      refine ⟨C', H', q1, q2, fun i c hi hc' => ?_⟩
      rw [hA.low (q4 i c hi hc'), gt_ofFn hi]
      simp only
      exact congrArg (· % _) (hA.congr (fun j hj => by rw [hw j c hj hc', (hSz j hj).2.1])))
    hio.wsz hio.osz hio.inj (d := T) (off := 0) (fuel := T + 1)
    (datas := datas) (s := ⟨C, H3, freshChars junk E.base.n_data E.buf_size,
      freshChars junk E.base.n_data E.buf_size⟩) (by omega) (by omega) h1
    (fun i hi => by rw [Nat.zero_min, written_zero]) g0 wz.symm wg wz.ge wg
  refine ⟨(true, datas', H4), ?_, (g1 gf).1, ?_⟩
  · simp only
    rw [hc.sorted, e1]
    simp only
    rw [e2]
    simp only
    rw [e3, ok_bind]
    simp only
    rw [e4, ok_bind]
    rfl
  · rw [if_neg hall, if_neg hfew]
    refine ⟨rfl, so, hc.valid, fun i hi => ?_⟩
    rw [ho i hi]
    unfold Written
    congr 2
    funext s
    rw [flat_congr (fun t _ => gt_ofFn hi)]

end FecV
end Quad
