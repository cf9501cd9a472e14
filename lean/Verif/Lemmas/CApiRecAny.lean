import Verif.Lemmas.CApiAny

/-!
# Reconstruction from blocks of any contents
-/

namespace Quad.CApi
open Quad.Spec Quad.Props

variable {c : FntCode} {pkt : Nat} {R : RsFntObj} {C : CtxB} {H : Heap} {bs d : Nat} {V : Array (Array Nat)} {missing : Array Bool}

/-- the available fragments before `k` are among the first `k` available ones -/
theorem mem_picked {k i : Nat} {fr : Array (Option (List Nat))} (hi : i < k) (hs : i < fr.size) (h : (gt fr i).isSome) : i ∈ picked k fr := by
  unfold picked
  obtain ⟨b, hb⟩ : ∃ b, fr.size = i + (b + 1) := ⟨fr.size - i - 1, by omega⟩
  rw [hb, List.range_add, List.filter_append, List.take_append, List.range_succ_eq_map, List.map_cons, Nat.add_zero, List.filter_cons, if_pos h]
  refine List.mem_append_right _ ?_
  have hl : ((List.range i).filter fun j => (gt fr j).isSome).length ≤ i := by
    have := List.length_filter_le (fun j => (gt fr j).isSome) (List.range i)
    rwa [List.length_range] at this
  obtain ⟨m, hm⟩ : ∃ m, k - ((List.range i).filter fun j => (gt fr j).isSome).length = m + 1 := ⟨k - ((List.range i).filter fun j => (gt fr j).isSome).length - 1, by omega⟩
  rw [hm, List.take_succ_cons]
  exact List.mem_cons_self

theorem ext_words {w T : Nat} {l l' : List Nat} (hl : l.length = T * w) (hl' : l'.length = T * w) (h : ∀ x ∈ l, x < 256) (h' : ∀ x ∈ l', x < 256)
    (hw : ∀ t, t < T → word w l t = word w l' t) : l = l' := by
  have h1 := flat_wordAt hl.ge h
  have h2 := flat_wordAt hl'.ge h'
  rw [List.take_of_length_le hl.le] at h1
  rw [List.take_of_length_le hl'.le] at h2
  rw [← h1, ← h2]
  exact flat_congr fun t ht => by rw [wordAt_word, wordAt_word, hw t ht]

/-- decoding in the caller's memory `U`, whose blocks are those of `V` and temporary ones -/
theorem decodeU_any (hc : c.Ok) (hpkt : 0 < pkt) (hr : c.Reachable pkt R C H) {p n : Nat} [Fact p.Prime] {g : ZMod p} (r : c.Root p n g)
    (hms : missing.size = c.k + c.m) {U : Array (Array Nat)} (hUs : c.k + c.m ≤ U.size)
    (hV : ∀ j, j < c.k + c.m → gt missing j = false → Block bs (gt V j) ∧ gt U j = gt V j)
    {dp tp : Array Ptr} {props : Array Properties} {wanted : Array Bool} (hdp : dp.size = c.nOut) (htp : tp.size = c.k) (p1 : props.size = c.nOut)
    (p2 : ∀ f, f < c.nOut → gt missing (c.first + f) = false → gt props f = gt (c.memProps bs V) f)
    (hsrc : ∀ f, f < c.nOut → gt missing (c.first + f) = false → gt dp f = some (c.first + f, metadata_size bs))
    (hdat : c.sys = true → ∀ i, i < c.k → gt missing i = false → gt tp i = some (i, metadata_size bs))
    (htgt : ∀ i, i < c.k → gt wanted i = true → ∃ q, gt tp i = some q ∧ q.1 < U.size ∧ q.2 + bs / c.w * c.w ≤ (gt U q.1).size)
    (hdist : Distinct tp c.k) (hcomp : Compatible dp tp c.k) (hw1 : c.k ≤ wanted.size) (hn : c.k ≤ missing.toList.count false)
    (mem : Nat → Nat) (junk : Nat → Nat → Nat) :
    ∃ U' H', ∃ out : Nat → List Nat, decodeU (R.fecV c.b) tp dp props missing wanted bs mem junk U H = .ok (true, U', H') ∧
      c.Reachable pkt R C H' ∧ U'.size = U.size ∧ (∀ b, (gt U' b).size = (gt U b).size) ∧
      (∀ i q y, i < c.k → gt wanted i = true → gt tp i = some q → y < bs / c.w * c.w → gt (gt U' q.1) (q.2 + y) = (out i).getD y 0) ∧
      (∀ b x, (∀ i base, i < c.k → gt wanted i = true → gt tp i = some (b, base) → x < base ∨ base + bs / c.w * c.w ≤ x) →
        gt (gt U' b) x = gt (gt U b) x) ∧
      ∀ i, i < c.k → (out i).length = bs / c.w * c.w ∧ (∀ x ∈ out i, x < 256) ∧
        (c.sys = true → gt missing i = false → out i = payload c.w bs (gt V i)) ∧
        (¬ (c.sys = true ∧ ∀ i, i < c.k → gt missing i = false) → ∀ t, t < bs / c.w →
          Interpolated c g (picked c.k (c.memFragments bs V missing))
            (fun j => c.seen (c.memFragments bs V missing) (c.memProps bs V) j t) i (word c.w (out i) t)) := by
  have hO := obj_of hc hr
  have hno := @nOut_first c
  have hTb : bs / c.w * c.w ≤ bs := Nat.div_mul_le_self _ _
  let datas : Array (Option (Array Nat)) := Array.ofFn (fun i : Fin c.k =>
    if gt wanted i.1 = true ∨ (c.sys = true ∧ gt missing i.1 = false) then viewP U (gt tp i.1) else none)
  let pars : Array (Option (Array Nat)) := Array.ofFn (fun f : Fin c.nOut =>
    if gt missing (c.first + f.1) then none else viewP U (some (c.first + f.1, metadata_size bs)))
  have hdg : ∀ i, i < c.k → gt datas i = if gt wanted i = true ∨ (c.sys = true ∧ gt missing i = false) then viewP U (gt tp i) else none :=
    fun i hi => gt_ofFn hi
  have hpg : ∀ f, f < c.nOut → gt pars f = if gt missing (c.first + f) then none else viewP U (some (c.first + f, metadata_size bs)) :=
    fun f hf => gt_ofFn hf
  have hdg' : c.sys = true → ∀ i, i < c.k → gt missing i = false → gt datas i = viewP U (some (i, metadata_size bs)) := fun hs i hi hm => by
    rw [hdg i hi, if_pos (.inr ⟨hs, hm⟩), hdat hs i hi hm]
  have hpg' : ∀ f, f < c.nOut → gt missing (c.first + f) = false → gt pars f = viewP U (some (c.first + f, metadata_size bs)) := fun f hf hm => by
    rw [hpg f hf, hm]; rfl
  have hvs : ∀ j, j < c.k + c.m → gt missing j = false →
      ∃ d, viewP U (some (j, metadata_size bs)) = some d ∧ bs / c.w * c.w ≤ d.size ∧ ∀ x ∈ d.toList, x < 256 := by
    intro j hj hm
    obtain ⟨hB, hU⟩ := hV j hj hm
    refine ⟨_, view_payload, ?_, ?_⟩
    · have := hB.1
      rw [hU]
      simp only [Array.size_extract]; omega
    · intro x hx
      rw [hU, view_toList] at hx
      exact hB.2 x (List.mem_of_mem_drop hx)
  have hA : c.AnyBlocks (bs / c.w) datas pars props missing := by
    refine ⟨by simp [datas], by simp [pars], p1, ?_, fun hs i hi hm => ?_, fun f hf hm => ?_⟩
    · rw [hms]; unfold FntCode.nOut; split <;> simp_all
    · rw [hdg' hs i hi hm]; exact hvs i (by omega) hm
    · rw [first_add] at hm
      rw [hpg' f hf hm]
      exact hvs _ (by omega) hm
  have hw2 : ∀ i, i < c.k → gt wanted i = true → ∃ d, gt datas i = some d ∧ bs / c.w * c.w ≤ d.size := fun i hi hwi => by
    obtain ⟨q, h1, h2, h3⟩ := htgt i hi hwi
    obtain ⟨d, h4, h5, _⟩ := viewP_some (U := U) (q := q) (by omega)
    exact ⟨d, by rw [hdg i hi, if_pos (.inl hwi), h1, h4], by omega⟩
  have hfr : c.blockFragments (bs / c.w) datas pars missing = c.memFragments bs V missing := by
    refine gt_ext (by simp [FntCode.blockFragments, FntCode.memFragments, hms]) (fun j hj => ?_)
    have hjm : j < missing.size := by simpa [FntCode.blockFragments] using hj
    have hj : j < c.k + c.m := by rw [← hms]; exact hjm
    rw [memFragments_gt hj]
    unfold FntCode.blockFragments
    rw [gt_ofFn hjm]
    by_cases hm : gt missing j = true
    · rw [if_pos hm, if_pos hm]
    · have hm' : gt missing j = false := by simpa using hm
      rw [if_neg hm, if_neg hm]
      have hvw : gt (if c.sys then datas ++ pars else pars) j = viewP U (some (j, metadata_size bs)) := by
        by_cases hs : c.sys = true
        · have hf0 : c.first = c.k := by simp [FntCode.first, hs]
          rw [if_pos hs, gt_append]
          by_cases hjk : j < c.k
          · rw [if_pos (by simpa [datas] using hjk), hdg' hs j hjk hm']
          · rw [if_neg (by simpa [datas] using hjk), show j - datas.size = j - c.k by simp [datas], hpg' (j - c.k) (by omega) (by rw [hf0, show c.k + (j - c.k) = j by omega]; exact hm'),
              hf0, show c.k + (j - c.k) = j by omega]
        · have hf0 : c.first = 0 := by simp [FntCode.first, hs]
          rw [if_neg hs, hpg' j (by omega) (by rw [hf0, Nat.zero_add]; exact hm'), hf0, Nat.zero_add]
      rw [hvw, view_payload, Option.map_some, view_toList, (hV j hj hm').2]
      rfl
  obtain ⟨v, o, H', e, _, q⟩ := (hr.inv hpkt r).decode_blocks_any hpkt rfl hA mem junk hw1 hw2
  have hr' := hr.decodeBlocksAny rfl hA hw1 hw2 e
  rw [hfr] at q
  obtain ⟨out, hoi, hv, hov⟩ : ∃ out : Nat → List Nat, (∀ i, i < c.k → (out i).length = bs / c.w * c.w ∧ (∀ x ∈ out i, x < 256) ∧
        (c.sys = true → gt missing i = false → out i = payload c.w bs (gt V i)) ∧
        (¬ (c.sys = true ∧ ∀ i, i < c.k → gt missing i = false) → ∀ t, t < bs / c.w →
          Interpolated c g (picked c.k (c.memFragments bs V missing))
            (fun j => c.seen (c.memFragments bs V missing) (c.memProps bs V) j t) i (word c.w (out i) t))) ∧ v = true ∧
      ∀ i, i < c.k → gt wanted i = true → gt o i = (gt datas i).map (fun d => (out i ++ d.toList.drop (bs / c.w * c.w)).toArray) := by
    by_cases hall : c.sys = true ∧ ∀ i, i < c.k → gt missing i = false
    · rw [if_pos hall] at q
      refine ⟨fun i => payload c.w bs (gt V i), fun i hi => ⟨payload_length (hV i (by omega) (hall.2 i hi)).1.1, fun x hx => ?_, fun _ _ => rfl,
        fun h => absurd hall h⟩, q.1, fun i hi _ => ?_⟩
      · exact (hV i (by omega) (hall.2 i hi)).1.2 x (List.mem_of_mem_drop (List.mem_of_mem_take hx))
      · rw [q.2, hdg' hall.1 i hi (hall.2 i hi), view_payload, Option.map_some, view_toList, (hV i (by omega) (hall.2 i hi)).2]
        unfold payload
        rw [List.take_append_drop, ← view_toList]
    · rw [if_neg hall, if_neg (by omega)] at q
      obtain ⟨q0, _, hv, q2⟩ := q
      have hint : ∀ i, i < c.k → ∀ t, t < bs / c.w → Interpolated c g (picked c.k (c.memFragments bs V missing))
            (fun j => c.seen (c.memFragments bs V missing) (c.memProps bs V) j t) i
            (word c.w (FntCode.decoded c g (bs / c.w) (c.memFragments bs V missing) props i) t) := by
        intro i hi t ht
        unfold FntCode.decoded
        rw [word_flat ht]
        have hy : ∀ j ∈ picked c.k (c.memFragments bs V missing), c.seen (c.memFragments bs V missing) props j t
            = c.seen (c.memFragments bs V missing) (c.memProps bs V) j t := by
          intro j hj
          have hj1 : j < c.k + c.m := by have := picked_lt hj; simpa [FntCode.memFragments] using this
          have hj2 : gt missing j = false := by
            have := (List.mem_filter.mp (List.mem_of_mem_take hj)).2
            rw [memFragments_gt hj1] at this
            by_contra hcon
            rw [if_pos (by simpa using hcon)] at this
            cases this
          unfold FntCode.seen
          by_cases hcond : c.sys = false ∨ c.k ≤ j
          · have hfi : c.first + (if c.sys then j - c.k else j) = j ∧ (if c.sys then j - c.k else j) < c.nOut := by
              unfold FntCode.first at hno ⊢
              cases hsy : c.sys with
              | true => rw [hsy] at hcond hno; simp at hcond hno ⊢; omega
              | false => rw [hsy] at hno; simp at hno ⊢; omega
            rw [p2 _ hfi.2 (by rw [hfi.1]; exact hj2)]
          · rw [if_neg (fun h => hcond h.1), if_neg (fun h => hcond h.1)]
        obtain ⟨P, a1, a2, a3, a4⟩ := interpolated_ival r hv (fun j => c.seen (c.memFragments bs V missing) props j t) i
        exact ⟨P, a1, fun j hj => (a2 j hj).trans (congrArg Nat.cast (hy j hj)), fun Q b1 b2 => a3 Q b1 (fun j hj => (b2 j hj).trans (congrArg Nat.cast (hy j hj)).symm), a4⟩
      refine ⟨fun i => FntCode.decoded c g (bs / c.w) (c.memFragments bs V missing) props i, fun i hi => ⟨flat_length _ _ _, flat_bytes _ _ _,
        fun hs hm => ?_, fun _ => hint i hi⟩, q0, fun i hi hwi => by rw [q2 i hi, if_pos hwi]⟩
      have hB := (hV i (by omega) hm).1
      refine ext_words (w := c.w) (T := bs / c.w) (flat_length _ _ _) (payload_length hB.1) (flat_bytes _ _ _)
        (fun x hx => hB.2 x (List.mem_of_mem_drop (List.mem_of_mem_take hx))) (fun t ht => ?_)
      obtain ⟨P, a1, a2, a3, a4⟩ := hint i hi t ht
      rw [a4, if_pos hs, a2 i (mem_picked hi (by simp [FntCode.memFragments]; omega) (by rw [memFragments_gt (by omega), hm]; rfl))]
      simp only [FntCode.seen]
      rw [if_neg (fun h => by rcases h.1 with h | h <;> [exact absurd (hs.symm.trans h) (by decide); omega]), memFragments_gt (by omega), hm]
      have hlt : word c.w (payload c.w bs (gt V i)) t < 2 ^ (8 * c.w) := by
        rw [← wordAt_word, two_pow_8]
        exact wordAt_lt (fun x hx => hB.2 x (List.mem_of_mem_drop (List.mem_of_mem_take hx))) t
      show (((word c.w (payload c.w bs (gt V i)) t : Nat) : ZMod p)).val % _ = _
      rw [ZMod.val_natCast_of_lt (by rw [r.ne]; omega), Nat.mod_eq_of_lt hlt]
  subst hv
  obtain ⟨U', e2, s1, s2, s3, s4⟩ := decodeU_out (T := bs / c.w) hc hr (U := U) (tp := tp) (dp := dp) hdp htp (datas := datas) (pars := pars)
    (by simp [datas]) (by simp [pars])
    (fun f hf => by
      rw [hpg f hf]
      cases hm : gt missing (c.first + f) with
      | true => intro d hd; cases hd
      | false =>
        obtain ⟨hB, hU⟩ := hV _ (by omega) hm
        rw [hsrc f hf hm]
        exact at_viewP (by simp only; omega) (by simp only; rw [hU]; have := hB.1; omega))
    (fun i hi => by
      rw [hdg i hi]
      by_cases hwi : gt wanted i = true
      · obtain ⟨q, h1, h2, h3⟩ := htgt i hi hwi
        rw [if_pos (.inl hwi), h1]
        exact at_viewP h2 (by omega)
      · by_cases hsm : c.sys = true ∧ gt missing i = false
        · obtain ⟨hB, hU⟩ := hV i (by omega) hsm.2
          rw [if_pos (.inr hsm), hdat hsm.1 i hi hsm.2]
          exact at_viewP (by simp only; omega) (by simp only; rw [hU]; have := hB.1; omega)
        · rw [if_neg (by tauto)]
          intro d hd; cases hd)
    (fun i hi hwi => by
      obtain ⟨q, h1, h2, h3⟩ := htgt i hi hwi
      exact ⟨q, h1, by rw [hdg i hi, if_pos (.inl hwi), h1], h2, h3⟩)
    hdist hcomp e (fun i hi => (hoi i hi).1) hov
  exact ⟨U', H', out, e2, hr', s1, s2, s3, s4, hoi⟩

theorem metaOf_labelled' (h44 : bs < 2 ^ 44) {P : Properties} (hP : Fnt P) {b b' : Array Nat} (h : Labelled bs P b b') (hs : b.size = metadata_size bs + bs) :
    metaOf bs b' = .marks (P.props.map Prod.fst) := by
  have h1 := h.read hP
  rw [deserialize_any h44 (block_of (by rw [h.size]; exact hs) h.bytes)] at h1
  cases hm : metaOf bs b' with
  | marks l =>
    rw [hm] at h1
    have h2 : l.map (fun x => (x, OOR_MARK)) = P.props := congrArg Properties.props (Prod.ext_iff.mp (Except.ok.inj h1)).2
    rw [← h2, List.map_map]
    exact congrArg _ (List.map_id l).symm
  | invalid => rw [hm] at h1; cases h1
  | wraps => rw [hm] at h1; cases h1

/-- writing the metadata of one block -/
theorem serLoop_one {U : Array (Array Nat)} {pr : Nat → Res Properties} {P : Properties} (hd : d < U.size) (hpr : pr 0 = .ok P) {ms : Nat} :
    serLoop ms (fun _ => d) pr 1 0 U = (serialize ms P (gt U d) >>= fun r => .ok (if r.1 = -1 then -1 else 0, U.setIfInBounds d r.2)) := by
  rw [serLoop, hpr, ok_bind, rd_gt hd, ok_bind]
  cases serialize ms P (gt U d) with
  | error x => rfl
  | ok r =>
    obtain ⟨ret, b⟩ := r
    rw [ok_bind, ok_bind]
    simp only
    rw [wr_ok hd, ok_bind]
    by_cases h : ret = -1
    · rw [if_pos h, if_pos h]; rfl
    · rw [if_neg h, if_neg h]; rfl

/-- a data block of the systematic code -/
theorem reconstruct_any_data (hc : c.Ok) (hb : c.b = 32) (hpkt : 0 < pkt) (hr : c.Reachable pkt R C H) {p n : Nat} [Fact p.Prime] {g : ZMod p}
    (r : c.Root p n g) (h44 : bs < 2 ^ 44) (hM : c.AnyRec bs V missing d)
    (hok : ∀ f, f < c.nOut → gt missing (c.first + f) = false → ∃ l, metaOf bs (gt V (c.first + f)) = .marks l) (hn : c.k ≤ missing.toList.count false)
    (hs : c.sys = true) (hd : d < c.k) (hkm : c.k ≤ c.m) (mem : Nat → Nat) (junk : Nat → Nat → Nat) :
    ∃ V' H', reconstruct R C V missing d bs mem junk H = .ok (0, V', C, H') ∧ c.Reachable pkt R C H' ∧ V'.size = V.size ∧
      Block bs (gt V' d) ∧ metaOf bs (gt V' d) = .marks [] ∧
      (if gt missing d then ∀ t, t < bs / c.w → Interpolated c g (picked c.k (c.memFragments bs V missing))
          (fun j => c.seen (c.memFragments bs V missing) (c.memProps bs V) j t) d (word c.w (payload c.w bs (gt V' d)) t)
       else payload c.w bs (gt V' d) = payload c.w bs (gt V d)) ∧
      (∀ x, metadata_size bs + bs / c.w * c.w ≤ x → gt (gt V' d) x = gt (gt V d) x) ∧ ∀ b, b ≠ d → gt V' b = gt V b := by
  have hO := obj_of hc hr
  have hno := @nOut_first c
  have hout : c.nOut = c.m := by simp [FntCode.nOut, hs]
  have hTb : bs / c.w * c.w ≤ bs := Nat.div_mul_le_self _ _
  have hVs := hM.size
  have hV := hM.block d (by omega) (.inl rfl)
  obtain ⟨props, e1, p1, p2⟩ := deserLoop_any h44 hM hok
  have hwg : ∀ i, gt ((Array.replicate c.nOut false).setIfInBounds d true) i = true → i = d := fun i h => by
    rw [gt_set (by simp; omega)] at h
    split at h
    · assumption
    · by_cases hi : i < c.nOut
      · rw [gt_replicate hi] at h; cases h
      · rw [gt_out (by simpa using hi)] at h; cases h
  obtain ⟨V1, H', out, e2, hr', s1, s2, s3, s4, ho⟩ := decodeU_any hc hpkt hr r hM.msize (V := V) (U := V) (bs := bs) (by omega)
    (fun j hj hm => ⟨hM.block j hj (.inr hm), rfl⟩) (tp := ptrs (metadata_size bs) 0 c.k) (dp := ptrs (metadata_size bs) c.first c.nOut)
    (props := props) (wanted := (Array.replicate c.nOut false).setIfInBounds d true) (size_ptrs _ _ _) (size_ptrs _ _ _) p1 p2
    (fun f hf _ => gt_ptrs hf) (fun _ i hi _ => by rw [gt_ptrs hi, Nat.zero_add])
    (fun i hi hwi => by
      have := hwg i hwi
      subst this
      refine ⟨(0 + i, metadata_size bs), gt_ptrs hi, by simp only; omega, ?_⟩
      simp only [Nat.zero_add]
      rw [hV.1]; omega)
    (distinct_ptrs _ _ _) (compatible_ptrs _ _ _ _ _) (by simp; omega) hn mem junk
  obtain ⟨o1, o2, o3, o4⟩ := ho d hd
  have hpay : ∀ y, y < bs / c.w * c.w → gt (gt V1 d) (metadata_size bs + y) = (out d).getD y 0 := fun y hy => by
    have := s3 d _ y hd (by rw [gt_set (by simp; omega), if_pos rfl]) (gt_ptrs hd) hy
    simpa using this
  have hkeep : ∀ b x, b ≠ d ∨ x < metadata_size bs ∨ metadata_size bs + bs / c.w * c.w ≤ x → gt (gt V1 b) x = gt (gt V b) x := fun b x h =>
    s4 b x (fun f base h1 h2 h3 => by
      have := hwg f h2
      rw [gt_ptrs h1] at h3
      simp at h3
      omega)
  have hB1 : Block bs (gt V1 d) := by
    refine block_of (by rw [s2]; exact hV.1) (fun x => ?_)
    by_cases hx : metadata_size bs ≤ x ∧ x < metadata_size bs + bs / c.w * c.w
    · have := hpay (x - metadata_size bs) (by omega)
      rw [show metadata_size bs + (x - metadata_size bs) = x by omega, List.getD_eq_getElem _ _ (by rw [o1]; omega)] at this
      rw [this]
      exact o2 _ (List.getElem_mem _)
    · rw [hkeep d x (by omega)]
      exact block_gt hV x
  obtain ⟨b', e3, l⟩ := serialize_labelled h44 hB1 (P := .empty) (by show 0 + 2 < _; unfold metaLen; omega)
  have hd1 : d < V1.size := by omega
  have hg : gt (V1.setIfInBounds d b') d = b' := by rw [gt_set hd1, if_pos rfl]
  have hpl : payload c.w bs b' = out d := by rw [l.payload hB1.1]; exact payload_ext hB1.1 o1 hpay
  refine ⟨V1.setIfInBounds d b', H', ?_, hr', by simpa using s1, ?_, ?_, ?_, fun x hx => ?_, fun b hb => ?_⟩
  · rw [hb] at e2
    unfold reconstruct
    simp only
    rw [hO.len, if_neg (by have := hM.msize; omega), firstOut_eq hO, hO.out, e1, ok_bind]
    simp only
    rw [hO.sys, hO.k, if_pos ⟨hs, hd⟩, wr_ok (by simp; omega), ok_bind, extract_all _ hM.msize, e2, ok_bind]
    simp only [if_true]
    rw [serLoop_one (P := .empty) hd1 rfl, e3]; rfl
  · rw [hg]; exact block_of (by rw [l.size]; exact hB1.1) l.bytes
  · rw [hg]; exact metaOf_labelled h44 l hB1.1
  · rw [hg, hpl]
    cases hm : gt missing d with
    | true =>
      simp only [if_true]
      exact o4 (fun h => by have := h.2 d hd; rw [hm] at this; cases this)
    | false => simpa using o3 hs hm
  · rw [hg, l.keep x (by omega), hkeep d x (.inr (.inr hx))]
  · rw [gt_set hd1, if_neg hb]
    exact gt_ext (s2 b) (fun x _ => hkeep b x (.inl hb))

/-- what reconstruction of output fragment `d` makes of the blocks `V`: the payload is the fragment of the data `D`, other blocks are unchanged -/
structure Rebuilt (c : FntCode) (bs d : Nat) (frag : List Nat) (V V' : Array (Array Nat)) : Prop where
  size : V'.size = V.size
  block : Block bs (gt V' d)
  frag : payload c.w bs (gt V' d) = frag
  rest : ∀ x, metadata_size bs + bs / c.w * c.w ≤ x → gt (gt V' d) x = gt (gt V d) x
  other : ∀ b, b ≠ d → gt V' b = gt V b

/-- an output fragment -/
theorem reconstruct_any_output (hc : c.Ok) (hb : c.b = 32) (hpkt : 0 < pkt) (hr : c.Reachable pkt R C H) {p n : Nat} [Fact p.Prime] {g : ZMod p}
    (r : c.Root p n g) (h32 : bs < 2 ^ 32) (hM : c.AnyRec bs V missing d)
    (hok : ∀ f, f < c.nOut → gt missing (c.first + f) = false → ∃ l, metaOf bs (gt V (c.first + f)) = .marks l) (hn : c.k ≤ missing.toList.count false)
    (hd1 : c.first ≤ d) (hd2 : d < c.k + c.m) (mem : Nat → Nat) (junk : Nat → Nat → Nat) :
    ∃ (D frags : Array (List Nat)) (fprops : Array Properties), c.Data D (bs / c.w) ∧ c.Encoded D frags fprops ∧
      (∀ i, i < c.k → (c.sys = true → gt missing i = false → gt D i = payload c.w bs (gt V i)) ∧
        (¬ (c.sys = true ∧ ∀ i, i < c.k → gt missing i = false) → ∀ t, t < bs / c.w →
          Interpolated c g (picked c.k (c.memFragments bs V missing))
            (fun j => c.seen (c.memFragments bs V missing) (c.memProps bs V) j t) i (word c.w (gt D i) t))) ∧
      ((gt fprops (d - c.first)).props.length + 2 < metaLen bs → ∃ V' C' H', reconstruct R C V missing d bs mem junk H = .ok (0, V', C', H') ∧
        c.Reachable pkt R C' H' ∧ Rebuilt c bs d (gt frags (d - c.first)) V V' ∧
        metaOf bs (gt V' d) = .marks ((gt fprops (d - c.first)).props.map Prod.fst)) ∧
      ((gt fprops (d - c.first)).props.length + 2 = metaLen bs → reconstruct R C V missing d bs mem junk H = .error .ub) ∧
      (metaLen bs < (gt fprops (d - c.first)).props.length + 2 → ∃ V' C' H', reconstruct R C V missing d bs mem junk H = .ok (-1, V', C', H') ∧
        c.Reachable pkt R C' H' ∧ V'.size = V.size ∧ ∀ b, b ≠ d → gt V' b = gt V b) := by
  have hO := obj_of hc hr
  have hno := @nOut_first c
  have h44 : bs < 2 ^ 44 := by omega
  have hTb : bs / c.w * c.w ≤ bs := Nat.div_mul_le_self _ _
  have hVs := hM.size
  have hV := hM.block d (by omega) (.inl rfl)
  obtain ⟨props, e1, p1, p2⟩ := deserLoop_any h44 hM hok
  let tmp : Nat → Bool := fun i => !c.sys || gt missing i
  let W : Array (Array Nat) := V ++ Array.ofFn (fun i : Fin c.k => if tmp i then Array.replicate bs 0 else #[])
  let datas : Array Ptr := Array.ofFn (fun i : Fin c.k => if tmp i then some (V.size + i.1, 0) else some (i.1, metadata_size bs))
  let wd : Array Bool := Array.ofFn (fun i : Fin c.k => tmp i.1)
  have hWs : W.size = V.size + c.k := by simp [W]
  have hWlt : ∀ b, b < V.size → gt W b = gt V b := fun b hb => by
    show gt (V ++ _) b = _
    rw [gt_append, if_pos hb]
  have hWtmp : ∀ i, i < c.k → tmp i = true → gt W (V.size + i) = Array.replicate bs 0 := fun i hi ht => by
    show gt (V ++ _) (V.size + i) = _
    rw [gt_append, if_neg (by omega), show V.size + i - V.size = i by omega, gt_ofFn hi, if_pos ht]
  have hdg : ∀ i, i < c.k → gt datas i = if tmp i then some (V.size + i, 0) else some (i, metadata_size bs) := fun i hi => gt_ofFn hi
  have hwg : ∀ i, i < c.k → gt wd i = tmp i := fun i hi => gt_ofFn hi
  -- the data is decoded to the temporary blocks
  obtain ⟨W1, H1, D, e2, hr1, y1, y2, hD, y3, y4⟩ : ∃ W1 H1, ∃ D : Array (List Nat), (if wd.any id then
        decodeU (R.fecV 32) datas (ptrs (metadata_size bs) c.first c.nOut) props missing wd bs mem junk W H
      else pure (true, W, H)) = .ok (true, W1, H1) ∧ c.Reachable pkt R C H1 ∧ W1.size = W.size ∧ (∀ b, b < V.size → gt W1 b = gt V b) ∧
      c.Data D (bs / c.w) ∧ (∀ i, i < c.k → Holds W1 (gt datas i) (gt D i)) ∧
      ∀ i, i < c.k → (c.sys = true → gt missing i = false → gt D i = payload c.w bs (gt V i)) ∧
        (¬ (c.sys = true ∧ ∀ i, i < c.k → gt missing i = false) → ∀ t, t < bs / c.w →
          Interpolated c g (picked c.k (c.memFragments bs V missing))
            (fun j => c.seen (c.memFragments bs V missing) (c.memProps bs V) j t) i (word c.w (gt D i) t)) := by
    have hpb : ∀ i, i < c.k → tmp i = false → c.sys = true ∧ gt missing i = false := fun i _ h => by simpa [tmp] using h
    have hsrc : ∀ {W1 : Array (Array Nat)}, W1.size = W.size → (∀ b, b < V.size → gt W1 b = gt V b) → ∀ i, i < c.k → tmp i = false →
        Holds W1 (gt datas i) (payload c.w bs (gt V i)) := by
      intro W1 hz hlow i hi ht
      have hB := hM.block i (by omega) (.inr (hpb i hi ht).2)
      refine ⟨(i, metadata_size bs), by rw [hdg i hi, ht]; rfl, by simp only; omega, ?_⟩
      simp only
      rw [hlow i (by omega), payload_length hB.1]
      exact ⟨by have := hB.1; omega, block_gt hB, fun y hy => by rw [payload_getD hy]⟩
    cases hany : wd.any id with
    | true =>
      obtain ⟨W1, H1, out, e2, hr', s1, s2, s3, s4, ho⟩ := decodeU_any hc hpkt hr r hM.msize (V := V) (U := W) (bs := bs) (by omega)
        (fun j hj hm => ⟨hM.block j hj (.inr hm), hWlt j (by omega)⟩) (tp := datas)
        (dp := ptrs (metadata_size bs) c.first c.nOut) (props := props) (wanted := wd) (size_ptrs _ _ _)
        (by simp [datas]) p1 p2 (fun f hf _ => gt_ptrs hf) (fun hs i hi hm => by rw [hdg i hi, if_neg (by simp [tmp, hs, hm])])
        (fun i hi hwi => by
          rw [hwg i hi] at hwi
          refine ⟨(V.size + i, 0), by rw [hdg i hi, if_pos hwi], by simp only; omega, ?_⟩
          simp only
          rw [hWtmp i hi hwi]; simp; omega)
        (by
          intro f f' b base base' h1 h2 h3 h4
          rw [hdg f h1] at h3
          rw [hdg f' h2] at h4
          split at h3 <;> split at h4 <;> simp at h3 h4 <;> omega)
        (by
          intro j f b base base' h1 h2 h3 h4
          rw [size_ptrs] at h1
          rw [gt_ptrs h1] at h3
          rw [hdg f h2] at h4
          split at h4 <;> simp at h3 h4 <;> omega)
        (by simp [wd]) hn mem junk
      have hlow : ∀ b, b < V.size → gt W1 b = gt V b := fun b hb => by
        rw [← hWlt b hb]
        refine gt_ext (s2 b) (fun x _ => s4 b x (fun i base h1 h2 h3 => ?_))
        rw [hwg i h1] at h2
        rw [hdg i h1, if_pos h2] at h3
        simp at h3
        omega
      have hDg : ∀ i, i < c.k → gt (Array.ofFn (fun i : Fin c.k => out i)) i = out i := fun i hi => gt_ofFn hi
      rw [hb] at e2
      refine ⟨W1, H1, Array.ofFn (fun i : Fin c.k => out i), by rw [if_pos rfl]; exact e2, hr', s1, hlow,
        ⟨by simp, fun i hi => by rw [hDg i hi]; exact (ho i hi).2.1, fun i hi => by rw [hDg i hi]; exact (ho i hi).1⟩, fun i hi => ?_,
        fun i hi => by rw [hDg i hi]; exact (ho i hi).2.2⟩
      obtain ⟨o1, o2, o3, o4⟩ := ho i hi
      rw [hDg i hi]
      by_cases ht : tmp i = true
      · have hq : gt datas i = some (V.size + i, 0) := by rw [hdg i hi, if_pos ht]
        have hby : ∀ y, y < bs / c.w * c.w → gt (gt W1 (V.size + i)) y = (out i).getD y 0 := fun y hy => by
          have := s3 i _ y hi (by rw [hwg i hi]; exact ht) hq hy
          simpa using this
        refine ⟨(V.size + i, 0), hq, by simp only; omega, ?_, ?_, ?_⟩
        · simp only
          rw [s2, hWtmp i hi ht, o1]; simp; omega
        · intro x
          by_cases hx : x < bs / c.w * c.w
          · simp only
            rw [hby x hx, List.getD_eq_getElem _ _ (by rw [o1]; exact hx)]
            exact o2 _ (List.getElem_mem _)
          · simp only
            rw [s4 (V.size + i) x (fun j base h1 h2 h3 => by
              rw [hwg j h1] at h2
              rw [hdg j h1, if_pos h2] at h3
              simp at h3
              omega), hWtmp i hi ht]
            by_cases hx2 : x < bs
            · rw [gt_replicate hx2]; decide
            · rw [gt_oob (by simpa using hx2)]; decide
        · intro y hy
          rw [o1] at hy
          simp only [Nat.zero_add]
          exact hby y hy
      · have ht' : tmp i = false := by simpa using ht
        rw [o3 (hpb i hi ht').1 (hpb i hi ht').2]
        exact hsrc s1 hlow i hi ht'
    | false =>
      have hnt : ∀ i, i < c.k → tmp i = false := by
        intro i hi
        have := (Array.any_eq_false.mp hany) i (by simpa [wd] using hi)
        simpa [wd] using this
      refine ⟨W, H, c.dataOf bs V, rfl, hr, rfl, hWlt, dataOf_data (fun i hi => hM.block i (by omega) (.inr (hpb i hi (hnt i hi)).2)), fun i hi => ?_,
        fun i hi => ⟨fun _ _ => dataOf_gt hi, fun h => absurd ⟨(hpb i hi (hnt i hi)).1, fun j hj => (hpb j hj (hnt j hj)).2⟩ h⟩⟩
      rw [dataOf_gt hi]
      exact hsrc rfl hWlt i hi (hnt i hi)
  obtain ⟨frags, fprops, _, _, _, hx, _⟩ := C36_streams_unique_partial hc hD
  have he := (hx frags fprops).mpr ⟨rfl, rfl⟩
  obtain ⟨z1, z2, z3, z4, z5⟩ := encoded_facts hc hD he
  have hdn : d - c.first < c.nOut := by omega
  have hfd : c.first + (d - c.first) = d := by omega
  let wn : Array Bool := (Array.replicate c.nOut false).setIfInBounds (d - c.first) true
  have hwn : ∀ i, gt wn i = true → i = d - c.first := fun i h => by
    rw [gt_set (by simpa using hdn)] at h
    split at h
    · assumption
    · by_cases hi : i < c.nOut
      · rw [gt_replicate hi] at h; cases h
      · rw [gt_out (by simpa using hi)] at h; cases h
  obtain ⟨W2, C2, H2, e3, hr2, s1, s2, s3, s4⟩ := encodeU_mem hc hD he rfl hpkt hr1 (U := W1) (dp := datas)
    (tp := ptrs (metadata_size bs) c.first c.nOut) (props := props) (wanted := wn) junk (by simp [datas]) y3 (size_ptrs _ _ _)
    (fun f hf hwf => by
      have := hwn f hwf
      subst this
      refine ⟨(c.first + (d - c.first), metadata_size bs), gt_ptrs hf, by simp only; omega, ?_⟩
      simp only [hfd]
      rw [y2 d (by omega), hV.1]; omega)
    (distinct_ptrs _ _ _)
    (by
      intro j f b base base' h1 h2 h3 h4
      have h1' : j < c.k := by simpa [datas] using h1
      rw [gt_ptrs h2] at h4
      rw [hdg j h1'] at h3
      split at h3 <;> simp at h3 h4 <;> omega)
    p1 (by simp [wn])
  have hpay : ∀ y, y < bs / c.w * c.w → gt (gt W2 d) (metadata_size bs + y) = (gt frags (d - c.first)).getD y 0 := fun y hy => by
    have := s3 (d - c.first) _ y hdn (by rw [gt_set (by simpa using hdn), if_pos rfl]) (gt_ptrs hdn) hy
    simpa only [hfd] using this
  have hkeep : ∀ b x, b < V.size → b ≠ d ∨ x < metadata_size bs ∨ metadata_size bs + bs / c.w * c.w ≤ x → gt (gt W2 b) x = gt (gt V b) x := fun b x hbV h => by
    rw [← y2 b hbV]
    exact s4 b x (fun f base h1 h2 h3 => by
      have := hwn f h2
      rw [gt_ptrs h1] at h3
      simp at h3
      omega)
  have hB2 : Block bs (gt W2 d) := by
    refine block_of (by rw [s2, y2 d (by omega)]; exact hV.1) (fun x => ?_)
    by_cases hx : metadata_size bs ≤ x ∧ x < metadata_size bs + bs / c.w * c.w
    · have := hpay (x - metadata_size bs) (by omega)
      rw [show metadata_size bs + (x - metadata_size bs) = x by omega] at this
      rw [this]
      exact z4 _ hdn _
    · rw [hkeep d x (by omega) (by omega)]
      exact block_gt hV x
  have hd2' : d < W2.size := by omega
  have hrec : reconstruct R C V missing d bs mem junk H = (do
      let (ret, U) ← serLoop (metadata_size bs) (fun _ => d) (fun _ => rd fprops (d - c.first)) 1 0 W2
      pure (ret, U.extract 0 V.size, C2, H2)) := by
    rw [hb] at e3
    have hnot : ¬ (c.sys = true ∧ d < c.k) := fun h => by
      have : c.first = c.k := by simp [FntCode.first, h.1]
      omega
    unfold reconstruct
    simp only
    rw [hO.len, if_neg (by have := hM.msize; omega), firstOut_eq hO, hO.out, e1, ok_bind]
    simp only
    rw [hO.sys, hO.k, if_neg hnot, extract_all _ hM.msize]
    refine Eq.trans (congrArg (fun z => z >>= _) e2) ?_
    rw [ok_bind]
    simp only [if_true]
    rw [wr_ok (by simpa using hdn), ok_bind]
    refine Eq.trans (congrArg (fun z => z >>= _) e3) ?_
    rw [ok_bind]
  rw [serLoop_one (P := gt fprops (d - c.first)) hd2' (by rw [rd_gt (by omega)])] at hrec
  have hgx : ∀ {W3 : Array (Array Nat)} {b : Nat}, W3.size = V.size + c.k → b < V.size → gt (W3.extract 0 V.size) b = gt W3 b := fun h hb => by
    rw [gt_extract (by omega) (by rw [h]; omega), Nat.zero_add]
  have hzs : ∀ {b'}, (W2.setIfInBounds d b').size = V.size + c.k := by intro b'; rw [Array.size_setIfInBounds, s1, y1, hWs]
  have hoth : ∀ {b'} b, b ≠ d → gt ((W2.setIfInBounds d b').extract 0 V.size) b = gt V b := fun b hbd => by
    by_cases hbs : b < V.size
    · rw [hgx hzs hbs, gt_set hd2', if_neg hbd]
      exact gt_ext (by rw [s2, y2 b hbs]) (fun x _ => hkeep b x hbs (.inl hbd))
    · rw [gt_out (by simp; omega), gt_out (by omega)]
  have hsz : ∀ {b'}, ((W2.setIfInBounds d b').extract 0 V.size).size = V.size := by
    intro b'
    rw [Array.size_extract, hzs]; omega
  refine ⟨D, frags, fprops, hD, he, y4, fun hfit => ?_, fun hfit => ?_, fun hfit => ?_⟩
  · obtain ⟨b', e4, l⟩ := serialize_labelled h44 hB2 hfit
    have hg : gt ((W2.setIfInBounds d b').extract 0 V.size) d = b' := by rw [hgx hzs (by omega), gt_set hd2', if_pos rfl]
    refine ⟨_, C2, H2, by rw [hrec, e4]; rfl, hr2, ⟨hsz, ?_, ?_, fun x hx => ?_, hoth⟩, ?_⟩
    · rw [hg]; exact block_of (by rw [l.size]; exact hB2.1) l.bytes
    · rw [hg, l.payload hB2.1]; exact payload_ext hB2.1 (z3 _ hdn) hpay
    · rw [hg, l.keep x (by omega), hkeep d x (by omega) (.inr (.inr hx))]
    · rw [hg]; exact metaOf_labelled' h44 (z5 (by have := Nat.div_le_self bs c.w; omega) _ hdn) l hB2.1
  · rw [hrec, serialize_exact (metadata_size_eq bs) (by have := hB2.1; omega) hfit.symm]; rfl
  · exact ⟨_, C2, H2, by rw [hrec, serialize_fail (metadata_size_eq bs) (by have := hB2.1; omega) hfit (metaLen_lt h44)]; rfl, hr2, hsz, hoth⟩

theorem msize_any (hM : c.AnyRec bs V missing d) : missing.size = if c.sys then c.k + c.nOut else c.nOut := by
  rw [hM.msize]; unfold FntCode.nOut; split <;> simp_all

/-- too few blocks -/
theorem reconstruct_any_few (hc : c.Ok) (hr : c.Reachable pkt R C H) (h44 : bs < 2 ^ 44) (hM : c.AnyRec bs V missing d)
    (hok : ∀ f, f < c.nOut → gt missing (c.first + f) = false → ∃ l, metaOf bs (gt V (c.first + f)) = .marks l)
    (hn : missing.toList.count false < c.k) (mem : Nat → Nat) (junk : Nat → Nat → Nat) (hd : d < c.k + c.m) (hkm : c.sys = true → d < c.k → d < c.m) :
    reconstruct R C V missing d bs mem junk H = .ok (-1, V, C, H) := by
  have hO := obj_of hc hr
  obtain ⟨props, e1, p1, p2⟩ := deserLoop_any h44 hM hok
  have hk' : (R.fecV 32).base.n_data = c.k := hO.k
  have ho' : (R.fecV 32).base.n_outputs = c.nOut := hO.out
  have hs' : (R.fecV 32).base.sys = c.sys := hO.sys
  have hfew : ∀ {datas : Array Ptr} {w : Array Bool} {W : Array (Array Nat)}, datas.size = c.k →
      decodeU (R.fecV 32) datas (ptrs (metadata_size bs) c.first c.nOut) props missing w bs mem junk W H = .ok (false, W, H) := fun h =>
    decodeU_few (by rw [hk']; exact hc.hk) (by rw [hk', h]) (by rw [ho', size_ptrs])
      (by rw [ho']; exact p1) (by rw [hk', ho', hs']; exact msize_any hM) (by rw [hk']; exact hn)
  unfold reconstruct
  simp only
  rw [hO.len, if_neg (by have := hM.msize; omega), firstOut_eq hO, hO.out, e1, ok_bind]
  simp only
  rw [extract_all _ hM.msize, hO.k, hO.sys]
  by_cases h : c.sys = true ∧ d < c.k
  · have : c.nOut = c.m := by simp [FntCode.nOut, h.1]
    rw [if_pos h, wr_ok (by have := hkm h.1 h.2; simp; omega), ok_bind, hfew (size_ptrs _ _ _), ok_bind]
    rfl
  · rw [if_neg h]
    have hany : (Array.ofFn (fun i : Fin c.k => !c.sys || gt missing i.1)).any id = true := by
      by_contra hcon
      have hall := Array.any_eq_false.mp (Bool.eq_false_iff.mpr hcon)
      have hsm : ∀ i, i < c.k → c.sys = true ∧ gt missing i = false := fun i hi => by
        have := hall i (by simpa using hi)
        simpa using this
      have hs := (hsm 0 hc.hk).1
      have hm := msize_any hM
      rw [if_pos hs] at hm
      have h1 := present_not_split hm
      have h2 := (present_not_all (missing := missing) (k := c.k) (by omega)).mpr (fun i hi => (hsm i hi).2)
      omega
    rw [if_pos hany, hfew (by simp), ok_bind]
    simp only [Bool.false_eq_true, if_false]
    have : (V ++ Array.ofFn (fun i : Fin c.k => if (!c.sys || gt missing i.1) = true then Array.replicate bs 0 else #[])).extract 0 V.size = V := by
      simp
    rw [this]; rfl

/-- a data block, with fewer parities than data fragments -/
theorem reconstruct_any_ub (hc : c.Ok) (hb : c.b = 32) (hpkt : 0 < pkt) (hr : c.Reachable pkt R C H) {p n : Nat} [Fact p.Prime] {g : ZMod p}
    (r : c.Root p n g) (h44 : bs < 2 ^ 44) (hM : c.AnyRec bs V missing d)
    (hok : ∀ f, f < c.nOut → gt missing (c.first + f) = false → ∃ l, metaOf bs (gt V (c.first + f)) = .marks l) (hn : c.k ≤ missing.toList.count false)
    (hs : c.sys = true) (hd : d < c.k) (hmd : ∃ i, i < c.k ∧ gt missing i = true) (hT : 0 < bs / c.w) (mem : Nat → Nat) (junk : Nat → Nat → Nat)
    (hkm : c.m < c.k) : reconstruct R C V missing d bs mem junk H = .error .ub := by
  have hO := obj_of hc hr
  have hno := @nOut_first c
  have hout : c.nOut = c.m := by simp [FntCode.nOut, hs]
  have hTb : bs / c.w * c.w ≤ bs := Nat.div_mul_le_self _ _
  have hVs := hM.size
  have hV := hM.block d (by omega) (.inl rfl)
  have hms := hM.msize
  obtain ⟨props, e1, p1, p2⟩ := deserLoop_any h44 hM hok
  unfold reconstruct
  simp only
  rw [hO.len, if_neg (by omega), firstOut_eq hO, hO.out, e1, ok_bind]
  simp only
  rw [hO.sys, hO.k, if_pos ⟨hs, hd⟩]
  by_cases hdm : d < c.m
  · rw [wr_ok (by simp; omega), ok_bind, extract_all _ hM.msize]
    have hwg : ∀ i, gt ((Array.replicate c.k false).setIfInBounds d true) i = true → i = d := fun i h => by
      rw [gt_set (by simp; omega)] at h
      split at h
      · assumption
      · by_cases hi : i < c.k
        · rw [gt_replicate hi] at h; cases h
        · rw [gt_out (by simpa using hi)] at h; cases h
    obtain ⟨V1, H', out, e2, _⟩ := decodeU_any hc hpkt hr r hM.msize (V := V) (U := V) (bs := bs) (by omega)
      (fun j hj hm => ⟨hM.block j hj (.inr hm), rfl⟩) (tp := ptrs (metadata_size bs) 0 c.k) (dp := ptrs (metadata_size bs) c.first c.nOut)
      (props := props) (wanted := (Array.replicate c.k false).setIfInBounds d true) (size_ptrs _ _ _) (size_ptrs _ _ _) p1 p2
      (fun f hf _ => gt_ptrs hf) (fun _ i hi _ => by rw [gt_ptrs hi, Nat.zero_add])
      (fun i hi hwi => by
        have := hwg i hwi
        subst this
        refine ⟨(0 + i, metadata_size bs), gt_ptrs hi, by simp only; omega, ?_⟩
        simp only [Nat.zero_add]
        rw [hV.1]; omega)
      (distinct_ptrs _ _ _) (compatible_ptrs _ _ _ _ _) (by simp) hn mem junk
    rw [hb] at e2
    have hk' : (R.fecV 32).base.n_data = c.k := hO.k
    rw [decodeU_short (w2 := (Array.replicate c.k false).setIfInBounds d true) (by rw [hk']; exact hc.hk) (hO.sys.trans hs)
      (by rw [hk', show (R.fecV 32).base.n_outputs = c.nOut from hO.out]; omega) (by rw [hk']; exact hmd)
      (by rw [show (R.fecV 32).base.word_size = c.w from hO.w]; exact hT) (by rw [hk']; simp; omega) (fun i hi => by
        have hi' : i < c.nOut := by simpa using hi
        rw [gt_set (by simp; omega), gt_set (by simp; omega)]
        split
        · rfl
        · rw [gt_replicate (by omega), gt_replicate (by omega)]) (by rw [hk']; simp) e2, error_bind]
  · have : wr (Array.replicate c.nOut false) d true = .error .ub := by simp [wr, ub]; omega
    rw [this, error_bind]

end Quad.CApi
