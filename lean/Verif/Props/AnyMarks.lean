import Verif.Lemmas.FecAnyMarks
import Verif.Props.Fec

/-!
# Fragments and properties with any contents decoded word by word (C60)

The codes over prime fields have more symbols than words; the properties say which words stand for the symbols that do not fit.  The theorems say what decoding word by
word makes of fragments and properties of any contents.  The vocabulary is in Spec/AnyMarks.lean.  C57 is about the packets.
-/

namespace Quad.Props
open Quad Quad.Spec Polynomial

/-- C60, the FNT code: it is over the field of `p = 2^(8w) + 1` elements, and a marked word stands for `2^(8w)`.  Decoding `n_data` or more fragments, whatever they and
the properties contain, succeeds and writes the coefficients of the polynomial through the symbols of the first `n_data` available fragments. -/
theorem C60_fnt {b db w k m : Nat} (hT : WordType b db) (hP : FntParams w k m) (pkt : Nat) (mem : Nat → Nat) :
    ∃ (B : FecBase) (n : Nat) (_ : Fact (2 ^ (8 * w) + 1).Prime) (g : ZMod (2 ^ (8 * w) + 1)), RsFnt.mkBase b db false w k m pkt mem = .ok B ∧
      k + m ≤ n ∧ IsPrimitiveRoot g n ∧ EncodesPoly (RsFnt.fec B) g (fun _ => 2 ^ (8 * w)) w k (k + m) ∧
      ∀ {T : Nat} {datas pars outs : Array (Option (List Nat))} {props : Array Properties} (mem' : Nat → Nat),
        AnyWords false w k (k + m) T datas pars → props.size = k + m → outs.size = k →
        DecodesPoly (RsFnt.fec B) g (fun _ => 2 ^ (8 * w)) w k T datas pars outs props mem' := by
  have hp : Fact (2 ^ (8 * w) + 1).Prime := ⟨hP.prime⟩
  obtain ⟨B, eB, hs, hw, _, S, n, l2, g, g2, okL, G⟩ := hP.build hT false pkt mem
  have hws : WordSize B.word_size := by rw [hw]; rcases hP.hw with h | h <;> simp [WordSize, h]
  have M := RsFnt.markCode G hs hws
  have hE := RsFnt.encodesPoly G hs hws
  rw [hw] at M hE
  refine ⟨B, n, hp, g, eB, G.le, (G.env.fft ()).root, hE, fun {T datas pars outs props} mem' h1 h2 h3 => ?_⟩
  have := M.decodesPoly (T := T) (datas := datas) (pars := pars) (outs := outs) (props := props) mem' (by rw [hw]; exact h1) h2 h3
  rwa [hw] at this

/-- C60, the code over a prime field on the FFT: a marked word `x` stands for `x + 256^w`, modulo `p`. -/
theorem C60_gfp {b db w k m : Nat} (h : GfpParams b db w k m) (mem : Nat → Nat) :
    ∃ (c : FecBase × Nat) (p n : Nat) (_ : Fact p.Prime) (g : ZMod p), RsGfpFft.mkBase b db w k m mem = .ok c ∧ 256 ^ w ≤ p ∧
      k + m ≤ n ∧ IsPrimitiveRoot g n ∧ EncodesPoly (RsGfpFft.fec b c) g (fun x => x + 256 ^ w) w k (k + m) ∧
      ∀ {T : Nat} {datas pars outs : Array (Option (List Nat))} {props : Array Properties} (mem' : Nat → Nat),
        AnyWords false w k (k + m) T datas pars → props.size = k + m → outs.size = k →
        DecodesPoly (RsGfpFft.fec b c) g (fun x => x + 256 ^ w) w k T datas pars outs props mem' := by
  obtain ⟨p, hp, B, S, n, l2, g2, e, hw, hpb, G, hφ, hb2, hmul⟩ := RsGfpFft.mkBase_field h mem
  have M := RsGfpFft.markCode G hw hφ hb2 hmul
  refine ⟨_, p, n, hp, S.φ B.r, e, G.qL, G.le, (G.env.fft ()).root, RsGfpFft.encodesPoly G hw hφ hpb,
    fun {T datas pars outs props} mem' h1 h2 h3 => ?_⟩
  have := M.decodesPoly (T := T) (datas := datas) (pars := pars) (outs := outs) (props := props) mem' (by rw [hw]; exact h1) h2 h3
  rwa [hw] at this

/-- C60, both codes: where the fragments that are decoded have the symbols of an encoding of `data`, the words of `data` come back; whatever the fragments and
the properties hold elsewhere. -/
theorem C60_recover {Γ : Type} {E : Fec Γ} {p : Nat} [Fact p.Prime] {g : ZMod p} {u : Nat → Nat} {w k n T T' : Nat} (hp : 256 ^ w ≤ p)
    (hE : EncodesPoly E g u w k n) {datas pars outs : Array (Option (List Nat))} {props : Array Properties} {mem : Nat → Nat}
    (hn : pars.size = n) (h : DecodesPoly E g u w k T datas pars outs props mem) {data : Array (List Nat)} (hd : Gf2nData w k data T')
    (mem' : Nat → Nat) :
    ∃ frags fprops res o, E.encode_streams_horizontal data (Array.replicate n []) (Array.replicate n .empty) mem' = .ok (frags, fprops) ∧
      E.decode_streams_horizontal datas pars props outs mem = .ok (true, res) ∧ (∀ i, i < k → gt res i = (gt outs i).map (fun s => s ++ gt o i)) ∧
      ∀ t, t < T → t < T' →
        (∀ j ∈ picked k pars, symbolAt w u ((gt pars j).getD []) (gt props j) t = symbolAt w u (gt frags j) (gt fprops j) t) →
        ∀ i, i < k → word w (gt o i) t = word w (gt data i) t := by
  obtain ⟨frags, fprops, e1, _, _, _, hs⟩ := hE data T' mem' hd
  obtain ⟨res, o, e2, _, _, _, h5, h6⟩ := h
  refine ⟨frags, fprops, res, o, e1, e2, h5, fun t ht ht' hag i hi => ?_⟩
  obtain ⟨P, P1, P2, P3⟩ := hs t ht'
  obtain ⟨Q, _, _, Q3, Q4⟩ := h6 t ht
  have hPQ : P = Q := Q3 P P1 fun j hj => by
    have hj' : j < pars.size := List.mem_range.mp (List.mem_filter.mp (List.mem_of_mem_take hj)).1
    rw [P3 j (by omega), hag j hj]
  have hlt : word w (gt data i) t < 256 ^ w := by
    rw [Fec.wordAt_eq]; exact wordAt_lt (hd.bytes i hi) t
  rw [Q4 i hi, ← hPQ, P2 i hi, ZMod.val_natCast_of_lt (by omega), Nat.mod_eq_of_lt hlt]

/-- C60, both codes: a decoded word depends only on the symbols at its location in the first `n_data` available fragments. -/
theorem C60_local {Γ Γ' : Type} {E : Fec Γ} {E' : Fec Γ'} {p : Nat} [Fact p.Prime] {g : ZMod p} {u : Nat → Nat} {w k T T' : Nat}
    {datas pars outs datas' pars' outs' : Array (Option (List Nat))} {props props' : Array Properties} {mem mem' : Nat → Nat}
    (h : DecodesPoly E g u w k T datas pars outs props mem) (h' : DecodesPoly E' g u w k T' datas' pars' outs' props' mem')
    (hp : picked k pars = picked k pars') :
    ∃ res o res' o', E.decode_streams_horizontal datas pars props outs mem = .ok (true, res) ∧
      E'.decode_streams_horizontal datas' pars' props' outs' mem' = .ok (true, res') ∧
      (∀ i, i < k → gt res i = (gt outs i).map (fun s => s ++ gt o i) ∧ gt res' i = (gt outs' i).map (fun s => s ++ gt o' i)) ∧
      ∀ t, t < T → t < T' →
        (∀ j ∈ picked k pars, symbolAt w u ((gt pars j).getD []) (gt props j) t = symbolAt w u ((gt pars' j).getD []) (gt props' j) t) →
        ∀ i, i < k → word w (gt o i) t = word w (gt o' i) t := by
  obtain ⟨res, o, e, _, _, _, h5, h6⟩ := h
  obtain ⟨res', o', e', _, _, _, h5', h6'⟩ := h'
  refine ⟨res, o, res', o', e, e', fun i hi => ⟨h5 i hi, h5' i hi⟩, fun t ht ht' hag i hi => ?_⟩
  obtain ⟨P, P1, P2, _, P4⟩ := h6 t ht
  obtain ⟨Q, _, _, Q3, Q4⟩ := h6' t ht'
  rw [P4 i hi, Q4 i hi, Q3 P P1 fun j hj => by rw [P2 j (hp ▸ hj), hag j (hp ▸ hj)]]

theorem linear {p : Nat} {P : (ZMod p)[X]} (h : P.degree < (2 : Nat)) : P = C (P.coeff 1) * X + C (P.coeff 0) :=
  eq_X_add_C_of_natDegree_le_one (natDegree_le_iff_coeff_eq_zero.mpr fun N hN => (degree_lt_iff_coeff_zero _ _).mp h N (by omega))

/-- A location listed twice hides all the marks after it. -/
theorem symbolAt_hidden (P : Properties) {s t : Nat} (hst : s < t) (h : 2 ≤ (P.props.map Prod.fst).count s) (w : Nat) (u : Nat → Nat)
    (f : List Nat) : symbolAt w u f P t = word w f t := by
  unfold symbolAt
  rw [if_neg]
  rintro ⟨_, _, h3⟩
  have := h3 s hst
  omega

/-- C60, a finding: a mark recorded twice ruins words elsewhere.  The data are two streams of two bytes.  The fragments are intact; in the properties of fragment 0 the mark of
location 0 is there a second time.  Decoding reports success, and location 1 of stream 0 is wrong.  (Decoding in packets sees every mark, `C57_streams_recover`.) -/
theorem C60_repeated_mark_ruins_other_words {b db m : Nat} (hT : WordType b db) (hP : FntParams 1 2 m) (pkt : Nat) (mem : Nat → Nat) :
    ∃ B frags fprops, RsFnt.mkBase b db false 1 2 m pkt mem = .ok B ∧
      (RsFnt.fec B).encode_streams_horizontal #[[255, 255], [1, 1]] (Array.replicate (2 + m) []) (Array.replicate (2 + m) .empty) mem
        = .ok (frags, fprops) ∧ (0, OOR_MARK) ∈ (gt fprops 0).props ∧
      ∀ mem', ∃ res s, (RsFnt.fec B).decode_streams_horizontal #[] (#[some (gt frags 0), some (gt frags 1)] ++ Array.replicate m none)
          (fprops.setIfInBounds 0 ((gt fprops 0).add 0 OOR_MARK)) #[some [], some []] mem' = .ok (true, res) ∧
        gt res 0 = some s ∧ s.length = 2 ∧ word 1 s 1 ≠ 255 := by
  obtain ⟨B, n, hp, g, eB, hn, hg, hE, hD⟩ := C60_fnt hT hP pkt mem
  obtain ⟨frags, fprops, e, s1, s2, hb, hs⟩ := hE #[[255, 255], [1, 1]] 2 mem ⟨rfl, by decide, by decide, 0, by decide, by decide⟩
  have hm := hP.hm
  have hb0 := hb 0 (by omega)
  have hb1 := hb 1 (by omega)
  have hwl : ∀ f t, f < 2 + m → word 1 (gt frags f) t < 256 := fun f t hf => by
    rw [Fec.wordAt_eq]
    exact wordAt_lt (w := 1) (hb f hf).2 t
  -- location t of fragment 0 is marked
  have hmk : ∀ t, t < 2 → MarkedAt (gt fprops 0) t := by
    intro t ht
    obtain ⟨P, P1, P2, P3⟩ := hs t ht
    by_contra hc
    have h3 := P3 0 (by omega)
    unfold symbolAt at h3
    rw [if_neg hc, pow_zero] at h3
    have hc0 := P2 0 (by omega)
    have hc1 := P2 1 (by omega)
    have hw0 : word 1 (gt #[[255, 255], [1, 1]] 0) t = 255 := by
      rcases t with _ | _ | t
      · decide
      · decide
      · omega
    have hw1 : word 1 (gt #[[255, 255], [1, 1]] 1) t = 1 := by
      rcases t with _ | _ | t
      · decide
      · decide
      · omega
    rw [hw0] at hc0
    rw [hw1] at hc1
    have hev : P.eval 1 = P.coeff 0 + P.coeff 1 := by
      conv_lhs => rw [linear P1]
      simp; ring
    rw [hev, hc0, hc1] at h3
    have := hwl 0 t (by omega)
    have h5 : (((255 + 1 : Nat)) : ZMod (2 ^ (8 * 1) + 1)) = (word 1 (gt frags 0) t : ZMod _) := by
      rw [← h3]; push_cast; ring
    rw [ZMod.natCast_eq_natCast_iff', Nat.mod_eq_of_lt (by norm_num), Nat.mod_eq_of_lt (by omega)] at h5
    omega
  refine ⟨B, frags, fprops, eB, e, (hmk 0 (by omega)).1, fun mem' => ?_⟩
  set pars : Array (Option (List Nat)) := #[some (gt frags 0), some (gt frags 1)] ++ Array.replicate m none with hpars
  set props := fprops.setIfInBounds 0 ((gt fprops 0).add 0 OOR_MARK) with hprops
  have hps : pars.size = 2 + m := by simp [hpars]
  have g0 : gt pars 0 = some (gt frags 0) := by rw [hpars, gt_append, if_pos (by simp)]; rfl
  have g1 : gt pars 1 = some (gt frags 1) := by rw [hpars, gt_append, if_pos (by simp)]; rfl
  have gn : ∀ j, 2 ≤ j → gt pars j = none := by
    intro j hj
    rw [hpars, gt_append, if_neg (by simp; omega)]
    by_cases h : j - 2 < m
    · exact gt_replicate h
    · rw [gt, Array.getD_eq_getD_getElem?, Array.getElem?_eq_none (by simp; omega)]; rfl
  have hpick : picked 2 pars = [0, 1] := by
    unfold picked
    rw [hps, List.range_add]
    have h2 : (List.map (fun x => 2 + x) (List.range m)).filter (fun i => (gt pars i).isSome) = [] := by
      rw [List.filter_eq_nil_iff]
      intro a ha
      obtain ⟨c, _, rfl⟩ := List.mem_map.mp ha
      rw [gn _ (by omega)]; simp
    rw [List.filter_append, h2, List.append_nil]
    have : List.range 2 = [0, 1] := rfl
    rw [this]
    simp [g0, g1]
  have hav : nAvail pars = 2 := by
    rw [hpars, Fec.nAvail_append]
    simp [nAvail]
  have hany : AnyWords false 1 2 (2 + m) 2 #[] pars := by
    refine ⟨by simp, hps, ?_, ?_, ?_, ?_⟩
    · show 2 ≤ nAvail pars; omega
    · intro s hs x hx
      change s ∈ pars.toList at hs
      simp only [hpars, Array.toList_append, List.mem_append, Array.toList_replicate, List.mem_replicate] at hs
      rcases hs with hs | ⟨_, rfl⟩
      · simp only [List.mem_cons, List.not_mem_nil, or_false] at hs
        rcases hs with rfl | rfl
        · exact hb0.2 x hx
        · exact hb1.2 x hx
      · simp at hx
    · show ∀ j ∈ picked 2 pars, 2 * 1 ≤ ((gt pars j).getD []).length
      rw [hpick]
      intro j hj
      simp only [List.mem_cons, List.not_mem_nil, or_false] at hj
      rcases hj with rfl | rfl
      · rw [g0]; exact hb0.1.ge
      · rw [g1]; exact hb1.1.ge
    · refine ⟨0, ?_, ?_⟩
      · show 0 ∈ picked 2 pars; rw [hpick]; simp
      · show ((gt pars 0).getD []).length < _
        rw [g0]
        show (gt frags 0).length < _
        rw [hb0.1]; omega
  obtain ⟨res, o, eD, _, _, hl, hres, hw⟩ := hD (outs := #[some [], some []]) (props := props) mem' hany (by simp [hprops, s2]) rfl
  refine ⟨res, gt o 0, eD, ?_, (hl 0 (by omega)).1, ?_⟩
  · rw [hres 0 (by omega)]; rfl
  intro hbad
  obtain ⟨Q, Q1, Q2, _, Q4⟩ := hw 1 (by omega)
  obtain ⟨P, P1, P2, P3⟩ := hs 1 (by omega)
  have hp0 : gt props 0 = (gt fprops 0).add 0 OOR_MARK := by rw [hprops, gt_set (by omega), if_pos rfl]
  have hp1 : gt props 1 = gt fprops 1 := by rw [hprops, gt_set (by omega), if_neg (by omega)]
  have hQ0 := Q2 0 (by rw [hpick]; simp)
  have hQ1 := Q2 1 (by rw [hpick]; simp)
  rw [g0, hp0, symbolAt_hidden _ (s := 0) (by omega) (by
    have h0 : 0 ∈ (gt fprops 0).props.map Prod.fst := List.mem_map.mpr ⟨_, (hmk 0 (by omega)).1, rfl⟩
    have := List.one_le_count_iff.mpr h0
    unfold Properties.add
    rw [List.map_append, List.count_append]
    have h1 : List.count 0 (List.map Prod.fst [((0 : Nat), OOR_MARK)]) = 1 := rfl
    omega)] at hQ0
  rw [g1, hp1] at hQ1
  have hP0 := P3 0 (by omega)
  have hP1 := P3 1 (by omega)
  have hsy : symbolAt 1 (fun _ => 2 ^ (8 * 1)) (gt frags 0) (gt fprops 0) 1 = 256 := by
    unfold symbolAt; rw [if_pos (hmk 1 (by omega))]; rfl
  rw [hsy] at hP0
  have hc : Q.coeff 0 = P.coeff 0 := by
    rw [P2 0 (by omega), show word 1 (gt #[[255, 255], [1, 1]] 0) 1 = 255 by decide]
    have h4 := Q4 0 (by omega)
    rw [hbad] at h4
    have hv := ZMod.val_lt (Q.coeff 0)
    have : (Q.coeff 0).val = 255 := by omega
    rw [← ZMod.natCast_zmod_val (Q.coeff 0), this]
  have hg0 : g ≠ 0 := hg.ne_zero (by omega)
  have heq : Q.eval (g ^ 1) = P.eval (g ^ 1) := by rw [hP1]; exact hQ1
  rw [linear P1, linear Q1, hc] at heq
  simp only [eval_add, eval_mul, eval_C, eval_X, pow_one, add_left_inj, mul_eq_mul_right_iff, hg0, or_false] at heq
  have hQP : Q = P := by rw [linear P1, linear Q1, hc, heq]
  rw [hQP, hP0] at hQ0
  have := hwl 0 1 (by omega)
  have h6 : ((256 : Nat) : ZMod (2 ^ (8 * 1) + 1)) = (word 1 (gt frags 0) 1 : ZMod _) := hQ0
  rw [ZMod.natCast_eq_natCast_iff', Nat.mod_eq_of_lt (by norm_num), Nat.mod_eq_of_lt (by omega)] at h6
  omega

example : MarkedAt ⟨[(1, OOR_MARK), (0, OOR_MARK)]⟩ 1 ∧ ¬ MarkedAt ⟨[(1, OOR_MARK), (0, OOR_MARK), (0, OOR_MARK)]⟩ 1 ∧
    MarkedAt ⟨[(1, OOR_MARK), (0, OOR_MARK), (0, OOR_MARK)]⟩ 0 := by decide

/-- the hypotheses are met -/
example : WordType 32 64 ∧ FntParams 1 3 2 ∧ FntParams 1 2 1 ∧ GfpParams 32 64 2 3 2 ∧
    AnyWords false 1 3 5 2 #[] #[some [0, 255], none, some [0, 1, 2], some [7, 8], none] := by
  refine ⟨.inl ⟨rfl, rfl⟩, ⟨.inl rfl, by decide, by decide, by decide, by decide⟩, ⟨.inl rfl, by decide, by decide, by decide, by decide⟩, ?_, ⟨by decide, rfl, by decide, by decide, by decide, 0, by decide, by decide⟩⟩
  exact ⟨.inl ⟨.inr rfl, .inl ⟨rfl, rfl⟩, by decide, by decide⟩, by decide, by decide⟩

end Quad.Props
