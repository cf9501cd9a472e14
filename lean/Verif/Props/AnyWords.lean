import Verif.Lemmas.FecAnyWords

/-!
# Fragments with any contents decoded word by word (C59)

The codes over GF(2^n) have as many symbols as words, and no properties: any `n_data` fragments, corrupt or not, are the fragments of exactly one data.  The
theorems say that decoding ends, without undefined behaviour or exception, with that data, whatever the fragments and the properties passed
contain.  The vocabulary is in Spec/AnyWords.lean.
-/

namespace Quad.Props
open Quad Quad.Spec Quad.Gf2nRec RsGf2n

theorem gf2n_any {b w k m : Nat} (h : Gf2nParams b w k m) (type : MatType) (mem : Nat → Nat) (junk : Nat → Nat → Nat)
    (junk3 : Nat → Nat → Nat → Nat) :
    ∃ E, RsGf2n.mk' b w k m type mem junk junk3 = .ok E ∧ ∀ {T : Nat} {datas pars outs : Array (Option (List Nat))} {props : Array Properties}
      (mem' : Nat → Nat), AnyWords true w k m T datas pars → props.size = m → outs.size = k → nAvail datas ≠ k →
      (type = .vandermonde ∨ gt datas 0 ≠ none ∨ gt pars 0 = none ∨ k ≤ nAvail datas + 2) →
      DecodesTo E true w k m T datas pars outs props mem' := by
  obtain ⟨hws, hw16⟩ := gf2n_wordSize h
  haveI := fact_of (size_of h.field.size)
  obtain ⟨O, B, mat, f, e, i1, v1, hu, _⟩ := RsGf2n.mk'_spec h.field hw16 h.hk h.len type mem junk junk3
  refine ⟨_, e, ?_⟩
  have H := RsGf2n.hspec B.full hws (fun a => by show a < 2 ^ (8 * w) ↔ _; rw [Nat.pow_mul]) h.hk i1 v1
  set E := fec O.gf w k m mat with hE
  intro T datas pars outs props mem' ha hq ho hne hsel
  have hav : k ≤ nAvail datas + nAvail pars := by
    rw [← Fec.nAvail_append]; exact ha.enough
  obtain ⟨q1, q2, q3, q4, q5, q6, q7⟩ := sel_facts (B := E.base) (k := k) (m := m) rfl rfl rfl (ha.dsize rfl) ha.psize hav
  have hidl : E.base.idList (datas.map Option.isSome) (pars.map Option.isSome) = picked k (fragsOf true datas pars) :=
    ids_picked E.base ha.dsize ha.psize
  refine Fec.decodesTo H (RsGf2n.propsFree _ _ _ _ _) mem' ha hq ho (fun _ => hne) ?_
  change _ → _
  intro hval
  refine hu _ hval ?_
  change IdsOk k m type (picked k (fragsOf true datas pars)).toArray
  rw [← hidl]
  unfold IdsOk
  rcases hsel with h | h | h | h
  · exact .inl h
  · exact .inr (.inl ((getD_mem_iff q4).mpr ((q5 0 ‹Gf2nParams b w k m›.hk).mpr h)))
  · refine .inr (.inr (.inl ?_))
    intro a ha' e0
    have hmem := (getD_mem_iff q4).mp ⟨a, ha', e0⟩
    have h0 := List.mem_of_mem_take ((q6 0).mp hmem)
    obtain ⟨p1, p2⟩ := mem_present.mp h0
    exact (isSome_mask_iff ha.psize p1).mp p2 h
  · refine .inr (.inr (.inr ?_))
    have hsub : (Finset.range k).filter (fun a => k ≤ gt (E.base.idList (datas.map Option.isSome) (pars.map Option.isSome)).toArray a)
        ⊆ Finset.Ico (nAvail datas) k := by
      intro a ha
      obtain ⟨p1, p2⟩ := Finset.mem_filter.mp ha
      refine Finset.mem_Ico.mpr ⟨?_, Finset.mem_range.mp p1⟩
      by_contra c
      have := q7 a (by omega)
      omega
    refine (Finset.card_le_card hsub).trans ?_
    rw [Nat.card_Ico]; omega

/-- C59, the Vandermonde code: whatever the available fragments and the properties contain, if they are enough and a data fragment is missing,
decoding succeeds and writes the only data whose fragments have the words of the first `n_data` available fragments. -/
theorem C59_vandermonde {b w k m : Nat} (h : Gf2nParams b w k m) (mem : Nat → Nat) (junk : Nat → Nat → Nat)
    (junk3 : Nat → Nat → Nat → Nat) :
    ∃ E, RsGf2n.mk' b w k m .vandermonde mem junk junk3 = .ok E ∧ ∀ {T : Nat} {datas pars outs : Array (Option (List Nat))}
      {props : Array Properties} (mem' : Nat → Nat), AnyWords true w k m T datas pars → props.size = m → outs.size = k → nAvail datas ≠ k →
      DecodesTo E true w k m T datas pars outs props mem' := by
  obtain ⟨E, e, h1⟩ := gf2n_any h .vandermonde mem junk junk3
  exact ⟨E, e, fun mem' a1 a2 a3 a4 => h1 mem' a1 a2 a3 a4 (.inl rfl)⟩

/-- C59, the Cauchy code, for the loss patterns it recovers from.  Missing: the other patterns, for which decoding throws
(`C28_three_losses_fail`, for fragments of any contents). -/
theorem C59_cauchy_partial {b w k m : Nat} (h : Gf2nParams b w k m) (mem : Nat → Nat) (junk : Nat → Nat → Nat)
    (junk3 : Nat → Nat → Nat → Nat) :
    ∃ E, RsGf2n.mk' b w k m .cauchy mem junk junk3 = .ok E ∧ ∀ {T : Nat} {datas pars outs : Array (Option (List Nat))}
      {props : Array Properties} (mem' : Nat → Nat), AnyWords true w k m T datas pars → props.size = m → outs.size = k → nAvail datas ≠ k →
      gt datas 0 ≠ none ∨ gt pars 0 = none ∨ k ≤ nAvail datas + 2 →
      DecodesTo E true w k m T datas pars outs props mem' := by
  obtain ⟨E, e, h1⟩ := gf2n_any h .cauchy mem junk junk3
  exact ⟨E, e, fun mem' a1 a2 a3 a4 a5 => h1 mem' a1 a2 a3 a4 (.inr a5)⟩

/-- C59, the code on the multiplicative FFT. -/
theorem C59_multiplicative {b w k m : Nat} (h : Gf2nFftParams b w k m) (mem : Nat → Nat) (junk : Nat → Nat → Nat)
    (junk3 : Nat → Nat → Nat → Nat) :
    ∃ B, RsGf2nFft.mkBase b w k m mem junk junk3 = .ok B ∧ ∀ {T : Nat} {datas pars outs : Array (Option (List Nat))}
      {props : Array Properties} (mem' : Nat → Nat), AnyWords false w k (k + m) T datas pars → props.size = k + m → outs.size = k →
      DecodesTo (RsGf2nFft.fec B) false w k (k + m) T datas pars outs props mem' := by
  obtain ⟨K, _, B, S, n, l2, g2, e, hw, G⟩ := RsGf2nFft.mkBase_spec h mem junk junk3
  refine ⟨B, e, fun {T datas pars outs props} mem' ha hq ho => ?_⟩
  have H := (FftCode.hspec G (RsGf2nFft.is_fec B) (RsGf2nFft.post_spec B _) (RsGf2nFft.prep_spec B _)).noMarks (fun {a f} h1 _ => by
    unfold FftCode.markOf
    rw [if_neg (by have := (FftCode.sym_spec G h1 f).1; omega)])
  have e1 : (RsGf2nFft.fec B).base.sys = false := G.sys
  have e2 : (RsGf2nFft.fec B).base.word_size = w := hw
  have e3 : (RsGf2nFft.fec B).base.n_data = k := G.n_data
  have e4 : (RsGf2nFft.fec B).base.n_outputs = k + m := G.n_outputs
  have := Fec.decodesTo H (RsGf2nFft.propsFree B) (T := T) (datas := datas) (pars := pars) (outs := outs) (props := props) mem'
    (by rw [e1, e2, e3, e4]; exact ha) (by rw [e4]; exact hq) (by rw [e3]; exact ho) (fun hs => by rw [e1] at hs; cases hs) trivial
  rwa [e1, e2, e3, e4] at this

/-- C59, the code on the additive FFT, with less than half the elements of the field as data fragments.  Missing: the others, for which decoding fails an
assertion (`C30_additive_decoding_asserts`, for fragments of any contents). -/
theorem C59_additive_partial {b w k m : Nat} (h : Gf2nFftAddParams b w k m) (h2 : 2 * k < 2 ^ (8 * w)) (mem : Nat → Nat)
    (junk : Nat → Nat → Nat) (junk3 : Nat → Nat → Nat → Nat) :
    ∃ c, RsGf2nFftAdd.mkCode b w k m mem junk junk3 = .ok c ∧ ∀ {T : Nat} {datas pars outs : Array (Option (List Nat))}
      {props : Array Properties} (mem' : Nat → Nat), AnyWords false w k (k + m) T datas pars → props.size = k + m → outs.size = k →
      DecodesTo (RsGf2nFftAdd.fec c) false w k (k + m) T datas pars outs props mem' := by
  obtain ⟨K, _, c, S, n, pt, e, G, hl, _⟩ := RsGf2nFftAdd.mkCode_spec h mem junk junk3
  refine ⟨c, e, fun {T datas pars outs props} mem' ha hq ho => ?_⟩
  have H := RsGf2nFftAdd.hspec G (hl h2)
  have e1 : (RsGf2nFftAdd.fec c).base.sys = false := G.sys
  have e2 : (RsGf2nFftAdd.fec c).base.word_size = w := G.word
  have e3 : (RsGf2nFftAdd.fec c).base.n_data = k := G.n_data
  have e4 : (RsGf2nFftAdd.fec c).base.n_outputs = k + m := G.n_outputs
  have := Fec.decodesTo H (RsGf2nFftAdd.propsFree c) (T := T) (datas := datas) (pars := pars) (outs := outs) (props := props) mem'
    (by rw [e1, e2, e3, e4]; exact ha) (by rw [e4]; exact hq) (by rw [e3]; exact ho) (fun hs => by rw [e1] at hs; cases hs) trivial
  rwa [e1, e2, e3, e4] at this

/-- C59, all these codes: where the fragments that are decoded are intact, the data come back.  `DecodesTo` with the fragments `frags` of an encoding, of which
any number are corrupt, at any locations. -/
theorem C59_recover {Γ : Type} {E : Fec Γ} {sys : Bool} {w k n T : Nat} {datas pars outs : Array (Option (List Nat))} {props : Array Properties}
    {mem : Nat → Nat} (h : DecodesTo E sys w k n T datas pars outs props mem) {data : Array (List Nat)} {T' : Nat} (hd : Gf2nData w k data T') :
    ∃ res out, E.decode_streams_horizontal datas pars props outs mem = .ok (true, res) ∧
      (∀ i, i < k → gt res i = (gt outs i).map (fun s => s ++ gt out i)) ∧
      ∀ t, t < T → t < T' → AgreeAt E sys w k n (fragsOf sys datas pars) data t → ∀ i, i < k → word w (gt out i) t = word w (gt data i) t := by
  obtain ⟨res, out, h1, h2, h3, h4, h5, h6, h7⟩ := h
  exact ⟨res, out, h1, h5, fun t h8 h9 h10 => h7 data T' t hd h9 h8 h10⟩

/-- C59, all these codes: only the complete words of the first `n_data` available fragments matter.  If two decodings start from fragments that agree there, they write the same. -/
theorem C59_only_picked {Γ : Type} {E : Fec Γ} {sys : Bool} {w k n T : Nat} (hw : 0 < w) (hk : 0 < k)
    {datas pars datas' pars' outs : Array (Option (List Nat))} {props props' : Array Properties} {mem mem' : Nat → Nat}
    (h : DecodesTo E sys w k n T datas pars outs props mem) (h' : DecodesTo E sys w k n T datas' pars' outs props' mem')
    (hp : picked k (fragsOf sys datas pars) = picked k (fragsOf sys datas' pars'))
    (hs : ∀ j ∈ picked k (fragsOf sys datas pars), ∀ t, t < T →
      word w ((gt (fragsOf sys datas pars) j).getD []) t = word w ((gt (fragsOf sys datas' pars') j).getD []) t) :
    E.decode_streams_horizontal datas pars props outs mem = E.decode_streams_horizontal datas' pars' props' outs mem' := by
  obtain ⟨res, out, h1, h2, h3, h4, h5, h6, h7⟩ := h
  obtain ⟨res', out', h1', h2', h3', h4', h5', h6', h7'⟩ := h'
  have hd : Gf2nData w k out' T := ⟨h3', fun i hi => (h4' i hi).2, fun i hi => (h4' i hi).1.ge, 0, hk, by
    rw [(h4' 0 hk).1, Nat.add_mul]; omega⟩
  have hout : ∀ i, i < k → gt out i = gt out' i := by
    intro i hi
    have hw' : ∀ t, t < T → wordAt w (gt out i) t = wordAt w (gt out' i) t := by
      intro t ht
      rw [← Fec.wordAt_eq, ← Fec.wordAt_eq]
      refine h7 out' T t hd ht ht (fun m => ?_) i hi
      obtain ⟨fr, fp, e, hh⟩ := h6' t ht m
      refine ⟨fr, fp, e, fun j hj => ?_⟩
      rw [hs j hj t ht]
      exact hh j (hp ▸ hj)
    have e1 := flat_wordAt (w := w) (T := T) (h4 i hi).1.ge (h4 i hi).2
    have e2 := flat_wordAt (w := w) (T := T) (h4' i hi).1.ge (h4' i hi).2
    rw [List.take_of_length_le (h4 i hi).1.le] at e1
    rw [List.take_of_length_le (h4' i hi).1.le] at e2
    rw [← e1, ← e2]
    exact flat_congr hw'
  rw [h1, h1']
  congr 2
  refine Array.ext (by rw [h2, h2']) fun i a1 a2 => ?_
  have := h5 i (by omega)
  rw [hout i (by omega), ← h5' i (by omega), gt_eq a1, gt_eq a2] at this
  exact this

/-- two of three data fragments with one parity, one of them a byte too short for a third word; and three fragments of a non-systematic code -/
example : AnyWords true 2 3 2 2 #[some [1, 2, 3, 4, 5], none, some [6, 7, 8, 9, 10, 11]] #[none, some [255, 255, 0, 0]] ∧
    AnyWords false 1 2 4 1 #[] #[none, some [9], some [255, 0], some []] :=
  ⟨⟨fun _ => rfl, rfl, by decide, by decide, by decide, 4, by decide, by decide⟩,
    ⟨by decide, rfl, by decide, by decide, by decide, 1, by decide, by decide⟩⟩

end Quad.Props
