import Verif.Lemmas.CApiRec
import Verif.Props.Corrupt

/-!
# The C functions on blocks of any contents
-/

namespace Quad.CApi
open Quad.Spec Quad.Props

variable {c : FntCode} {pkt : Nat} {R : RsFntObj} {C : CtxB} {H : Heap} {T bs : Nat}

/-! ## Metadata -/

theorem bswap_metaWords {n j : Nat} {b : Array Nat} (hj : j < n) (h : 4 * n ≤ b.size) (hb : ∀ x, gt b x < 256) :
    bswap32 (gt (metaWords n b) j) = be32 b j := by
  rw [gt_metaWords hj h, bswap32_bytes (hb _) (hb _) (hb _) (hb _)]
  unfold be32
  omega

/-- reading the metadata of a block -/
def readMeta : MetaKind → Res (Int × Properties)
  | .marks l => .ok (0, ⟨l.map (fun x => (x, OOR_MARK))⟩)
  | .invalid => .ok (-1, .empty)
  | .wraps => .error .ub

theorem deserialize_any {b : Array Nat} (h44 : bs < 2 ^ 44) (hB : Block bs b) :
    deserialize (metadata_size bs) .empty b = readMeta (metaOf bs b) := by
  have hm := metadata_size_eq bs
  have hl := metaLen_lt h44
  have h16 : 16 ≤ metaLen bs := by unfold metaLen; omega
  have hsz := hB.1
  have hg : ∀ j, j < metaLen bs → bswap32 (gt (metaWords (metaLen bs) b) j) = be32 b j := fun j hj =>
    bswap_metaWords hj (by omega) (block_gt hB)
  unfold deserialize
  rw [if_pos (by omega), show metadata_size bs / 4 = metaLen bs by omega, C33_every_area (by simp; omega) (by simpa using hl), hg 0 (by omega),
    hg 1 (by omega), size_metaWords]
  unfold metaOf
  by_cases h1 : be32 b 0 ≠ 0x464E5431
  · rw [if_pos h1, if_pos h1]; rfl
  · rw [if_neg h1, if_neg h1]
    by_cases h2 : 2 ^ 32 ≤ 2 + be32 b 1
    · rw [if_pos h2, if_pos h2]; rfl
    · rw [if_neg h2, if_neg h2]
      by_cases h3 : metaLen bs < 2 + be32 b 1
      · rw [if_pos h3, if_pos (by omega)]; rfl
      · rw [if_neg h3, if_neg (by omega)]
        dsimp only [readMeta]
        rw [List.map_map]
        have : ∀ i ∈ List.range (be32 b 1), (bswap32 (gt (metaWords (metaLen bs) b) (2 + i)), OOR_MARK)
            = ((fun x => (x, OOR_MARK)) ∘ fun i => be32 b (2 + i)) i := by
          intro i hi
          have := List.mem_range.mp hi
          rw [hg (2 + i) (by omega)]; rfl
        rw [List.map_congr_left this]

/-- reading stops at the first block with bad metadata -/
theorem deserLoop_stops {ms first : Nat} {missing : Array Bool} {U : Array (Array Nat)} {P : Nat → Properties} {f : Nat} {r : Res (Int × Properties)}
    (hr : r = .ok (-1, .empty) ∨ r = .error .ub) :
    ∀ {n i : Nat} {props : Array Properties}, first + i + n ≤ missing.size → i + n ≤ props.size → i ≤ f → f < i + n →
      (∀ j, i ≤ j → j < i + n → gt props j = .empty) →
      (∀ j, i ≤ j → j < f → gt missing (first + j) = false → first + j < U.size ∧ deserialize ms .empty (gt U (first + j)) = .ok (0, P j)) →
      gt missing (first + f) = false → first + f < U.size → deserialize ms .empty (gt U (first + f)) = r →
      deserLoop ms first missing U n i props = (r >>= fun _ => .ok none) := by
  intro n
  induction n with
  | zero => intro i props _ _ h1 h2; omega
  | succ n ih =>
    intro i props hm hp h1 h2 he h hmf hf hd
    rw [deserLoop, rd_gt (by omega), ok_bind]
    by_cases hif : i = f
    · subst hif
      rw [hmf]
      simp only [Bool.false_eq_true, if_false]
      rw [rd_gt (by omega), ok_bind, rd_gt hf, ok_bind, he i (by omega) (by omega), hd]
      rcases hr with rfl | rfl
      · rw [ok_bind]
        simp only
        rw [wr_ok (by omega), ok_bind, if_pos trivial]; rfl
      · rfl
    · cases hmi : gt missing (first + i) with
      | true =>
        simp only [if_true]
        exact ih (by omega) (by omega) (by omega) (by omega) (fun j h1 h2 => he j (by omega) (by omega)) (fun j h1 h2 => h j (by omega) h2) hmf hf hd
      | false =>
        obtain ⟨k1, k2⟩ := h i (by omega) (by omega) hmi
        simp only [Bool.false_eq_true, if_false]
        rw [rd_gt (by omega), ok_bind, rd_gt k1, ok_bind, he i (by omega) (by omega), k2, ok_bind]
        simp only
        rw [wr_ok (by omega), ok_bind, if_neg (by decide)]
        exact ih (by omega) (by simp; omega) (by omega) (by omega)
          (fun j h1 h2 => by rw [gt_set (by omega), if_neg (by omega)]; exact he j (by omega) (by omega)) (fun j h1 h2 => h j (by omega) h2) hmf hf hd

/-! ## The caller's memory -/

/-- decoding blocks and decoding in the caller's memory, where `out i` replaces what wanted data block `i` starts with -/
theorem decodeU_out (hc : c.Ok) (hr : c.Reachable pkt R C H)
    {U : Array (Array Nat)} {dp tp : Array Ptr} {props : Array Properties} {missing wanted : Array Bool}
    {mem : Nat → Nat} {junk : Nat → Nat → Nat} (hdp : dp.size = c.nOut) (htp : tp.size = c.k)
    {datas pars : Array (Option (Array Nat))} (hds : datas.size = c.k) (hps : pars.size = c.nOut)
    (hsrc : ∀ f, f < c.nOut → At 0 U (gt dp f) (gt pars f)) (htat : ∀ i, i < c.k → At 0 U (gt tp i) (gt datas i))
    (htgt : ∀ i, i < c.k → gt wanted i = true → ∃ q, gt tp i = some q ∧ gt datas i = viewP U (some q) ∧ q.1 < U.size ∧ q.2 + T * c.w ≤ (gt U q.1).size)
    (hdist : Distinct tp c.k) (hcomp : Compatible dp tp c.k) {v : Bool} {o : Array (Option (Array Nat))} {H' : Heap}
    (e : (R.fecV c.b).decode_blocks_vertical datas pars props missing wanted bs mem junk H = .ok (v, o, H'))
    {out : Nat → List Nat} (hol : ∀ i, i < c.k → (out i).length = T * c.w)
    (ho : ∀ i, i < c.k → gt wanted i = true → gt o i = (gt datas i).map (fun d => (out i ++ d.toList.drop (T * c.w)).toArray)) :
    ∃ U', decodeU (R.fecV c.b) tp dp props missing wanted bs mem junk U H = .ok (v, U', H') ∧ U'.size = U.size ∧
      (∀ b, (gt U' b).size = (gt U b).size) ∧
      (∀ i q y, i < c.k → gt wanted i = true → gt tp i = some q → y < T * c.w → gt (gt U' q.1) (q.2 + y) = (out i).getD y 0) ∧
      ∀ b x, (∀ i base, i < c.k → gt wanted i = true → gt tp i = some (b, base) → x < base ∨ base + T * c.w ≤ x) → gt (gt U' b) x = gt (gt U b) x := by
  have hO := obj_of hc hr
  have hk : (R.fecV c.b).base.n_data = c.k := hO.k
  obtain ⟨U', e', t, f'⟩ := decodeU_sim (E := R.fecV c.b) (dp := dp) (tp := tp) (U := U) e (by rw [hdp, hps]) (by rw [htp, hds])
    (by rw [hk, hds]) (by rw [hk]; exact hdist) (by rw [hk]; exact hcomp) (fun j hj => hsrc j (by omega)) (fun i hi => htat i (by rw [hk] at hi; exact hi))
  rw [hk] at t f'
  have key : ∀ i q, i < c.k → gt wanted i = true → gt tp i = some q → ∀ y, gt (gt U' q.1) (q.2 + y)
      = if y < T * c.w then (out i).getD y 0 else gt (gt U q.1) (q.2 + y) := by
    intro i q hi hwi hq y
    obtain ⟨q', h1, h0, h2, h3⟩ := htgt i hi hwi
    rw [hq] at h1; cases h1
    obtain ⟨d, h4, h5, h6⟩ := viewP_some (U := U) (q := q) (by omega)
    have ho := ho i hi hwi
    rw [h0, h4] at ho
    obtain ⟨q'', k1, k2, k3, k4⟩ := t i hi _ ho
    rw [hq] at k1; cases k1
    rw [k4 y (by omega), gt_appendDrop (hol i hi), h6]
  refine ⟨U', e', f'.1, fun b => (f'.2 b).1, fun i q y hi hs hq hy => by rw [key i q hi hs hq, if_pos hy], fun b x hx => ?_⟩
  by_cases hex : ∃ f base, f < c.k ∧ gt wanted f = true ∧ gt tp f = some (b, base) ∧ base ≤ x
  · obtain ⟨f, base, h1, h2, h3, h4⟩ := hex
    have := key f (b, base) h1 h2 h3 (x - base)
    simp only at this
    rw [show base + (x - base) = x by omega, if_neg (by have := hx f base h1 h2 h3; omega)] at this
    exact this
  · push Not at hex
    exact f'.range (fun f base h1 h2 h3 => hex f base h1 h2 h3)

theorem memFragments_gt {V : Array (Array Nat)} {missing : Array Bool} {j : Nat} (hj : j < c.k + c.m) :
    gt (c.memFragments bs V missing) j = if gt missing j then none else some (payload c.w bs (gt V j)) := by
  unfold FntCode.memFragments
  rw [gt_ofFn hj]

theorem memProps_gt {V : Array (Array Nat)} {f : Nat} (hf : f < c.nOut) :
    gt (c.memProps bs V) f = ⟨(metaOf bs (gt V (c.first + f))).list.map (fun x => (x, OOR_MARK))⟩ := by
  unfold FntCode.memProps
  rw [gt_ofFn hf]

theorem view_payload {V : Array (Array Nat)} {i : Nat} :
    viewP V (some (i, metadata_size bs)) = some ((gt V i).extract (metadata_size bs) (gt V i).size) := rfl

theorem view_toList (b : Array Nat) (m : Nat) : (b.extract m b.size).toList = b.toList.drop m := by simp

/-- decoding, when the metadata have been read -/
theorem decode_any_eq (hc : c.Ok) (hb : c.b = 32) (hpkt : 0 < pkt) (hr : c.Reachable pkt R C H) {p n : Nat} [Fact p.Prime] {g : ZMod p} (r : c.Root p n g)
    (h44 : bs < 2 ^ 44) {V : Array (Array Nat)} {missing : Array Bool} (hM : c.AnyMem bs V missing) {props : Array Properties}
    (e1 : deserLoop (metadata_size bs) c.first missing V c.nOut 0 (Array.replicate c.nOut .empty) = .ok (some props)) (p1 : props.size = c.nOut)
    (p2 : ∀ f, f < c.nOut → gt missing (c.first + f) = false → gt props f = gt (c.memProps bs V) f) (hn : c.k ≤ missing.toList.count false)
    (mem : Nat → Nat) (junk : Nat → Nat → Nat) :
    ∃ V1 H', c.Reachable pkt R C H' ∧ V1.size = V.size ∧
      (∀ i, i < c.k → Block bs (gt V1 i) ∧
        (if c.sys = true ∧ ∀ i, i < c.k → gt missing i = false then payload c.w bs (gt V1 i) = payload c.w bs (gt V i)
         else ∀ t, t < bs / c.w → Interpolated c g (picked c.k (c.memFragments bs V missing))
          (fun j => c.seen (c.memFragments bs V missing) (c.memProps bs V) j t) i (word c.w (payload c.w bs (gt V1 i)) t))) ∧
      (∀ b, c.k ≤ b → gt V1 b = gt V b) ∧ (∀ b x, metadata_size bs + bs / c.w * c.w ≤ x → gt (gt V1 b) x = gt (gt V b) x) ∧
      decode R V missing bs mem junk H = (do
        let (ret, U) ← serLoop (metadata_size bs) (fun i => i) (fun i => do
          let P ← rd props i
          pure P.clear) c.k 0 V1
        pure (ret, U, H')) := by
  have hO := obj_of hc hr
  have hno := @nOut_first c
  have hTb : bs / c.w * c.w ≤ bs := Nat.div_mul_le_self _ _
  have hVk : ∀ i, i < c.k → Block bs (gt V i) := fun i hi => hM.block i (by omega) (.inl hi)
  have hVp : ∀ f, f < c.nOut → gt missing (c.first + f) = false → Block bs (gt V (c.first + f)) := fun f hf hm => hM.block _ (by omega) (.inr hm)
  have hav : ∀ f, f < c.nOut → gt (availPtrs R (metadata_size bs) missing) f
      = if gt missing (c.first + f) then none else some (c.first + f, metadata_size bs) := fun f hf => by
    unfold availPtrs
    rw [gt_ofFn (by rw [hO.out]; exact hf), firstOut_eq hO]
  let datas : Array (Option (Array Nat)) := Array.ofFn (fun i : Fin c.k => viewP V (some (i.1, metadata_size bs)))
  let pars : Array (Option (Array Nat)) := Array.ofFn (fun f : Fin c.nOut => viewP V (gt (availPtrs R (metadata_size bs) missing) f.1))
  have hdg : ∀ i, i < c.k → gt datas i = viewP V (some (i, metadata_size bs)) := fun i hi => gt_ofFn hi
  have hpg : ∀ f, f < c.nOut → gt pars f = viewP V (gt (availPtrs R (metadata_size bs) missing) f) := fun f hf => gt_ofFn hf
  have hpg' : ∀ f, f < c.nOut → gt missing (c.first + f) = false → gt pars f = viewP V (some (c.first + f, metadata_size bs)) := fun f hf hm => by
    rw [hpg f hf, hav f hf, hm]; rfl
  have hvs : ∀ j, Block bs (gt V j) → ∃ d, viewP V (some (j, metadata_size bs)) = some d ∧ bs / c.w * c.w ≤ d.size ∧ ∀ x ∈ d.toList, x < 256 := by
    intro j hB
    refine ⟨_, view_payload, ?_, ?_⟩
    · have := hB.1
      simp only [Array.size_extract]; omega
    · intro x hx
      rw [view_toList] at hx
      exact hB.2 x (List.mem_of_mem_drop hx)
  have hA : c.AnyBlocks (bs / c.w) datas pars props missing := by
    refine ⟨by simp [datas], by simp [pars], p1, ?_, fun hs i hi hm => ?_, fun f hf hm => ?_⟩
    · rw [hM.msize]; unfold FntCode.nOut; split <;> simp_all
    · rw [hdg i hi]; exact hvs i (hVk i hi)
    · rw [first_add] at hm
      rw [hpg' f hf hm]
      exact hvs _ (hVp f hf hm)
  have hw1 : c.k ≤ (Array.replicate c.k true).size := by simp
  have hw2 : ∀ i, i < c.k → gt (Array.replicate c.k true) i = true → ∃ d, gt datas i = some d ∧ bs / c.w * c.w ≤ d.size := fun i hi _ => by
    obtain ⟨d, h1, h2, _⟩ := hvs i (hVk i hi)
    exact ⟨d, by rw [hdg i hi, h1], h2⟩
  have hfr : c.blockFragments (bs / c.w) datas pars missing = c.memFragments bs V missing := by
    refine gt_ext (by simp [FntCode.blockFragments, FntCode.memFragments, hM.msize]) (fun j hj => ?_)
    have hjm : j < missing.size := by simpa [FntCode.blockFragments] using hj
    have hj : j < c.k + c.m := by rw [← hM.msize]; exact hjm
    rw [memFragments_gt hj]
    unfold FntCode.blockFragments
    rw [gt_ofFn hjm]
    by_cases hm : gt missing j = true
    · rw [if_pos hm, if_pos hm]
    · have hm' : gt missing j = false := by simpa using hm
      rw [if_neg hm, if_neg hm]
      have hvw : gt (if c.sys then datas ++ pars else pars) j = viewP V (some (j, metadata_size bs)) := by
        by_cases hs : c.sys = true
        · have hf0 : c.first = c.k := by simp [FntCode.first, hs]
          rw [if_pos hs, gt_append]
          by_cases hjk : j < c.k
          · rw [if_pos (by simpa [datas] using hjk), hdg j hjk]
          · rw [if_neg (by simpa [datas] using hjk), show j - datas.size = j - c.k by simp [datas], hpg' (j - c.k) (by omega) (by rw [hf0, show c.k + (j - c.k) = j by omega]; exact hm'),
              hf0, show c.k + (j - c.k) = j by omega]
        · have hf0 : c.first = 0 := by simp [FntCode.first, hs]
          rw [if_neg hs, hpg' j (by omega) (by rw [hf0, Nat.zero_add]; exact hm'), hf0, Nat.zero_add]
      rw [hvw, view_payload, Option.map_some, view_toList]
      rfl
  obtain ⟨v, o, H', e, _, q⟩ := (hr.inv hpkt r).decode_blocks_any hpkt rfl hA mem junk hw1 hw2
  have hr' := hr.decodeBlocksAny rfl hA hw1 hw2 e
  rw [hfr] at q
  -- what is written
  obtain ⟨out, hol, hoy, hov, hoi⟩ : ∃ out : Nat → List Nat, (∀ i, i < c.k → (out i).length = bs / c.w * c.w) ∧ (∀ i, i < c.k → ∀ x ∈ out i, x < 256) ∧
      (v = true ∧ ∀ i, i < c.k → gt (Array.replicate c.k true) i = true → gt o i = (gt datas i).map (fun d => (out i ++ d.toList.drop (bs / c.w * c.w)).toArray)) ∧
      ∀ i, i < c.k → (if c.sys = true ∧ ∀ i, i < c.k → gt missing i = false then out i = payload c.w bs (gt V i)
         else ∀ t, t < bs / c.w → Interpolated c g (picked c.k (c.memFragments bs V missing))
          (fun j => c.seen (c.memFragments bs V missing) (c.memProps bs V) j t) i (word c.w (out i) t)) := by
    by_cases hall : c.sys = true ∧ ∀ i, i < c.k → gt missing i = false
    · rw [if_pos hall] at q
      refine ⟨fun i => payload c.w bs (gt V i), fun i hi => payload_length (hVk i hi).1, fun i hi x hx => ?_, ⟨q.1, fun i hi _ => ?_⟩, fun i hi => by rw [if_pos hall]⟩
      · exact (hVk i hi).2 x (List.mem_of_mem_drop (List.mem_of_mem_take hx))
      · rw [q.2, hdg i hi, view_payload, Option.map_some, view_toList]
        unfold payload
        rw [List.take_append_drop, ← view_toList]
    · rw [if_neg hall, if_neg (by omega)] at q
      obtain ⟨q0, _, hv, q2⟩ := q
      refine ⟨fun i => FntCode.decoded c g (bs / c.w) (c.memFragments bs V missing) props i, fun i _ => flat_length _ _ _, fun i _ => flat_bytes _ _ _,
        ⟨q0, fun i hi hwi => by rw [q2 i hi, if_pos hwi]⟩, fun i hi => ?_⟩
      rw [if_neg hall]
      intro t ht
      unfold FntCode.decoded
      rw [word_flat ht]
      have hy : ∀ j ∈ picked c.k (c.memFragments bs V missing), c.seen (c.memFragments bs V missing) props j t
          = c.seen (c.memFragments bs V missing) (c.memProps bs V) j t := by
        intro j hj
        have hj1 : j < c.k + c.m := by have := picked_lt hj; simpa [FntCode.memFragments] using this
        have hj2 : gt missing j = false := by
          have := (List.mem_filter.mp (List.mem_of_mem_take hj)).2
          rw [memFragments_gt hj1] at this
          by_contra hcon
          rw [if_pos (by simpa using hcon)] at this
          cases this
        unfold FntCode.seen
        by_cases hcond : c.sys = false ∨ c.k ≤ j
        · have hfi : c.first + (if c.sys then j - c.k else j) = j ∧ (if c.sys then j - c.k else j) < c.nOut := by
            unfold FntCode.first at hno ⊢
            cases hsy : c.sys with
            | true => rw [hsy] at hcond hno; simp at hcond hno ⊢; omega
            | false => rw [hsy] at hno; simp at hno ⊢; omega
          rw [p2 _ hfi.2 (by rw [hfi.1]; exact hj2)]
        · rw [if_neg (fun h => hcond h.1), if_neg (fun h => hcond h.1)]
      obtain ⟨P, a1, a2, a3, a4⟩ := interpolated_ival r hv (fun j => c.seen (c.memFragments bs V missing) props j t) i
      exact ⟨P, a1, fun j hj => (a2 j hj).trans (congrArg Nat.cast (hy j hj)), fun Q b1 b2 => a3 Q b1 (fun j hj => (b2 j hj).trans (congrArg Nat.cast (hy j hj)).symm), a4⟩
  obtain ⟨rfl, hov⟩ := hov
  obtain ⟨V1, e2, s1, s2, s3, s4⟩ := decodeU_out (T := bs / c.w) hc hr (U := V) (tp := ptrs (metadata_size bs) 0 c.k) (dp := availPtrs R (metadata_size bs) missing)
    (by simp [availPtrs, hO.out]) (size_ptrs _ _ _) (by simp [datas]) (by simp [pars])
    (fun f hf => by
      rw [hpg f hf, hav f hf]
      split
      · intro d hd; cases hd
      · rename_i hm
        exact at_viewP (by simp only; have := hM.size; omega) (by simp only; have := (hVp f hf (by simpa using hm)).1; omega))
    (fun i hi => by
      rw [hdg i hi, gt_ptrs hi, Nat.zero_add]
      exact at_viewP (by simp only; have := hM.size; omega) (by simp only; have := (hVk i hi).1; omega))
    (fun i hi _ => ⟨(0 + i, metadata_size bs), gt_ptrs hi, by rw [hdg i hi, Nat.zero_add], by simp only; have := hM.size; omega, by
      simp only [Nat.zero_add]; have := (hVk i hi).1; omega⟩)
    (distinct_ptrs _ _ _) (by
      intro j f b base base' h1 h2 h3 h4
      rw [hav j (by simpa [availPtrs, hO.out] using h1)] at h3
      rw [gt_ptrs h2] at h4
      split at h3
      · cases h3
      · simp at h3 h4; omega) e hol hov
  have hpay : ∀ i, i < c.k → ∀ y, y < bs / c.w * c.w → gt (gt V1 i) (metadata_size bs + y) = (out i).getD y 0 := by
    intro i hi y hy
    have := s3 i _ y hi (by rw [gt_replicate hi]) (gt_ptrs hi) hy
    simpa using this
  have hB1 : ∀ i, i < c.k → Block bs (gt V1 i) := by
    intro i hi
    refine block_of (by rw [s2]; exact (hVk i hi).1) (fun x => ?_)
    by_cases hx : metadata_size bs ≤ x ∧ x < metadata_size bs + bs / c.w * c.w
    · have := hpay i hi (x - metadata_size bs) (by omega)
      rw [show metadata_size bs + (x - metadata_size bs) = x by omega, List.getD_eq_getElem _ _ (by rw [hol i hi]; omega)] at this
      rw [this]
      exact hoy i hi _ (List.getElem_mem _)
    · rw [s4 i x (fun j base h1 _ h3 => by
        rw [gt_ptrs h1] at h3
        simp at h3
        omega)]
      exact block_gt (hVk i hi) x
  have hk1 : ∀ i, i < c.k → payload c.w bs (gt V1 i) = out i := fun i hi => payload_ext (hB1 i hi).1 (hol i hi) (hpay i hi)
  refine ⟨V1, H', hr', s1, fun i hi => ⟨hB1 i hi, by rw [hk1 i hi]; exact hoi i hi⟩, fun b hb => ?_, fun b x hx => ?_, ?_⟩
  · refine gt_ext (s2 b) (fun x _ => s4 b x (fun j base h1 _ h3 => ?_))
    rw [gt_ptrs h1] at h3
    simp at h3
    omega
  · refine s4 b x (fun j base h1 _ h3 => ?_)
    rw [gt_ptrs h1] at h3
    simp at h3
    omega
  · rw [hb] at e2
    unfold decode
    simp only
    rw [hO.len, if_neg (by have := hM.msize; omega), firstOut_eq hO, hO.out, e1, ok_bind]
    simp only
    rw [extract_all _ hM.msize, hO.k, e2, ok_bind]
    simp only [if_true]

theorem anyRec {V : Array (Array Nat)} {missing : Array Bool} (hM : c.AnyMem bs V missing) : c.AnyRec bs V missing (c.k + c.m) :=
  ⟨hM.size, hM.msize, fun i hi h => hM.block i hi (.inr (h.resolve_left (by omega)))⟩

/-- all metadata that are read are lists of locations -/
theorem deserLoop_any (h44 : bs < 2 ^ 44) {V : Array (Array Nat)} {missing : Array Bool} {d : Nat} (hM : c.AnyRec bs V missing d)
    (hok : ∀ f, f < c.nOut → gt missing (c.first + f) = false → ∃ l, metaOf bs (gt V (c.first + f)) = .marks l) :
    ∃ props, deserLoop (metadata_size bs) c.first missing V c.nOut 0 (Array.replicate c.nOut .empty) = .ok (some props) ∧ props.size = c.nOut ∧
      ∀ f, f < c.nOut → gt missing (c.first + f) = false → gt props f = gt (c.memProps bs V) f := by
  have hno := @nOut_first c
  have hsz := hM.size
  have hms := hM.msize
  obtain ⟨props, e, p1, p2, _⟩ := deserLoop_ok (ms := metadata_size bs) (first := c.first) (missing := missing) (U := V) (n := c.nOut) (i := 0)
    (props := Array.replicate c.nOut .empty) (P := fun f => gt (c.memProps bs V) f) (by omega) (by simp) (fun j _ h => gt_replicate (by omega))
    (fun f _ hf hm => by
      obtain ⟨l, hl⟩ := hok f (by omega) hm
      refine ⟨by omega, ?_⟩
      rw [deserialize_any h44 (hM.block _ (by omega) (.inr hm)), hl, memProps_gt (by omega), hl]; rfl)
  exact ⟨props, e, by simpa using p1, fun f hf hm => p2 f (by omega) (by omega) hm⟩

theorem decode_any_few (hc : c.Ok) (hr : c.Reachable pkt R C H) (h44 : bs < 2 ^ 44) {V : Array (Array Nat)} {missing : Array Bool}
    (hM : c.AnyMem bs V missing) (hok : ∀ f, f < c.nOut → gt missing (c.first + f) = false → ∃ l, metaOf bs (gt V (c.first + f)) = .marks l)
    (hn : missing.toList.count false < c.k) (mem : Nat → Nat) (junk : Nat → Nat → Nat) : decode R V missing bs mem junk H = .ok (-1, V, H) := by
  have hO := obj_of hc hr
  obtain ⟨props, e1, p1, p2⟩ := deserLoop_any h44 (anyRec hM) hok
  have hk' : (R.fecV 32).base.n_data = c.k := hO.k
  have ho' : (R.fecV 32).base.n_outputs = c.nOut := hO.out
  have hs' : (R.fecV 32).base.sys = c.sys := hO.sys
  unfold decode
  simp only
  rw [hO.len, if_neg (by have := hM.msize; omega), firstOut_eq hO, hO.out, e1, ok_bind]
  simp only
  rw [extract_all _ hM.msize, hO.k, decodeU_few (by rw [hk']; exact hc.hk) (by rw [hk', size_ptrs]) (by rw [ho']; simp [availPtrs, hO.out])
    (by rw [ho']; exact p1) (by
      rw [hk', ho', hs', hM.msize]; unfold FntCode.nOut; split <;> simp_all) (by rw [hk']; exact hn), ok_bind]
  rfl

/-- the first bad metadata decide -/
theorem decode_any_bad (hc : c.Ok) (hr : c.Reachable pkt R C H) (h44 : bs < 2 ^ 44) {V : Array (Array Nat)} {missing : Array Bool}
    (hM : c.AnyMem bs V missing) {f : Nat} (hf : f < c.nOut) (hmf : gt missing (c.first + f) = false)
    (hok : ∀ f', f' < f → gt missing (c.first + f') = false → ∃ l, metaOf bs (gt V (c.first + f')) = .marks l)
    (hbad : ∀ l, metaOf bs (gt V (c.first + f)) ≠ .marks l) (mem : Nat → Nat) (junk : Nat → Nat → Nat) :
    decode R V missing bs mem junk H = (readMeta (metaOf bs (gt V (c.first + f))) >>= fun _ => .ok (-1, V, H)) := by
  have hO := obj_of hc hr
  have hno := @nOut_first c
  have hsz := hM.size
  have hms := hM.msize
  have e1 := deserLoop_stops (ms := metadata_size bs) (first := c.first) (missing := missing) (U := V) (n := c.nOut) (i := 0) (f := f)
    (props := Array.replicate c.nOut .empty) (P := fun f => gt (c.memProps bs V) f) (r := readMeta (metaOf bs (gt V (c.first + f))))
    (by
      cases hk : metaOf bs (gt V (c.first + f)) with
      | marks l => exact absurd hk (hbad l)
      | invalid => exact .inl rfl
      | wraps => exact .inr rfl) (by omega) (by simp) (by omega) (by omega) (fun j _ h => gt_replicate (by omega))
    (fun f' _ hf' hm => by
      obtain ⟨l, hl⟩ := hok f' (by omega) hm
      refine ⟨by omega, ?_⟩
      rw [deserialize_any h44 (hM.block _ (by omega) (.inr hm)), hl, memProps_gt (by omega), hl]; rfl)
    hmf (by omega) (deserialize_any h44 (hM.block _ (by omega) (.inr hmf)))
  unfold decode
  simp only
  rw [hO.len, if_neg (by omega), firstOut_eq hO, hO.out, e1]
  cases metaOf bs (gt V (c.first + f)) <;> rfl

theorem reconstruct_any_bad (hc : c.Ok) (hr : c.Reachable pkt R C H) (h44 : bs < 2 ^ 44) {V : Array (Array Nat)} {missing : Array Bool}
    {d : Nat} (hM : c.AnyRec bs V missing d) {f : Nat} (hf : f < c.nOut) (hmf : gt missing (c.first + f) = false)
    (hok : ∀ f', f' < f → gt missing (c.first + f') = false → ∃ l, metaOf bs (gt V (c.first + f')) = .marks l)
    (hbad : ∀ l, metaOf bs (gt V (c.first + f)) ≠ .marks l) (mem : Nat → Nat) (junk : Nat → Nat → Nat) :
    reconstruct R C V missing d bs mem junk H = (readMeta (metaOf bs (gt V (c.first + f))) >>= fun _ => .ok (-1, V, C, H)) := by
  have hO := obj_of hc hr
  have hno := @nOut_first c
  have hsz := hM.size
  have hms := hM.msize
  have e1 := deserLoop_stops (ms := metadata_size bs) (first := c.first) (missing := missing) (U := V) (n := c.nOut) (i := 0) (f := f)
    (props := Array.replicate c.nOut .empty) (P := fun f => gt (c.memProps bs V) f) (r := readMeta (metaOf bs (gt V (c.first + f))))
    (by
      cases hk : metaOf bs (gt V (c.first + f)) with
      | marks l => exact absurd hk (hbad l)
      | invalid => exact .inl rfl
      | wraps => exact .inr rfl) (by omega) (by simp) (by omega) (by omega) (fun j _ h => gt_replicate (by omega))
    (fun f' _ hf' hm => by
      obtain ⟨l, hl⟩ := hok f' (by omega) hm
      refine ⟨by omega, ?_⟩
      rw [deserialize_any h44 (hM.block _ (by omega) (.inr hm)), hl, memProps_gt (by omega), hl]; rfl)
    hmf (by omega) (deserialize_any h44 (hM.block _ (by omega) (.inr hmf)))
  unfold reconstruct
  simp only
  rw [hO.len, if_neg (by omega), firstOut_eq hO, hO.out, e1]
  cases metaOf bs (gt V (c.first + f)) <;> rfl

theorem metaOf_labelled (h44 : bs < 2 ^ 44) {b b' : Array Nat} (h : Labelled bs .empty b b') (hs : b.size = metadata_size bs + bs) :
    metaOf bs b' = .marks [] := by
  have h1 := h.read (by intro x hx; cases hx)
  rw [deserialize_any h44 (block_of (by rw [h.size]; exact hs) h.bytes)] at h1
  cases hm : metaOf bs b' with
  | marks l =>
    rw [hm] at h1
    have := congrArg Properties.props (Prod.ext_iff.mp (Except.ok.inj h1)).2
    have h2 : l.map (fun x => (x, OOR_MARK)) = [] := this
    rw [List.map_eq_nil_iff.mp h2]
  | invalid => rw [hm] at h1; cases h1
  | wraps => rw [hm] at h1; cases h1

theorem decode_any (hc : c.Ok) (hb : c.b = 32) (hpkt : 0 < pkt) (hr : c.Reachable pkt R C H) {p n : Nat} [Fact p.Prime] {g : ZMod p} (r : c.Root p n g)
    (h44 : bs < 2 ^ 44) {V : Array (Array Nat)} {missing : Array Bool} (hM : c.AnyMem bs V missing)
    (hok : ∀ f, f < c.nOut → gt missing (c.first + f) = false → ∃ l, metaOf bs (gt V (c.first + f)) = .marks l) (hn : c.k ≤ missing.toList.count false)
    (mem : Nat → Nat) (junk : Nat → Nat → Nat) (hkm : c.k ≤ c.nOut) :
    ∃ V' H', decode R V missing bs mem junk H = .ok (0, V', H') ∧ c.Reachable pkt R C H' ∧ V'.size = V.size ∧
      (∀ i, i < c.k → Block bs (gt V' i) ∧ metaOf bs (gt V' i) = .marks [] ∧
        (if c.sys = true ∧ ∀ i, i < c.k → gt missing i = false then payload c.w bs (gt V' i) = payload c.w bs (gt V i)
         else ∀ t, t < bs / c.w → Interpolated c g (picked c.k (c.memFragments bs V missing))
          (fun j => c.seen (c.memFragments bs V missing) (c.memProps bs V) j t) i (word c.w (payload c.w bs (gt V' i)) t)) ∧
        ∀ x, metadata_size bs + bs / c.w * c.w ≤ x → gt (gt V' i) x = gt (gt V i) x) ∧ ∀ b, c.k ≤ b → gt V' b = gt V b := by
  obtain ⟨props, e1, p1, p2⟩ := deserLoop_any h44 (anyRec hM) hok
  obtain ⟨V1, H', hr', s1, s2, s3, s4, e⟩ := decode_any_eq hc hb hpkt hr r h44 hM e1 p1 p2 hn mem junk
  have hsz := hM.size
  obtain ⟨V', e3, t1, t2, t3⟩ := serLoop_labelled (bs := bs) h44 (n := c.k) (first := 0) (U := V1) (P := fun _ => .empty) (by omega)
    (fun i hi => by rw [Nat.zero_add]; exact (s2 i hi).1) (fun i hi => by show 0 + 2 < _; unfold metaLen; omega)
  simp only [Nat.zero_add] at e3 t2 t3
  refine ⟨V', H', ?_, hr', by omega, fun i hi => ?_, fun b hb => by rw [t3 b (.inr hb), s3 b hb]⟩
  · rw [e]
    have : serLoop (metadata_size bs) (fun i => i) (fun i => do
          let P ← rd props i
          pure P.clear) c.k 0 V1 = .ok (0, V') := by
      rw [← e3]
      refine serLoop_congr (fun j _ hj => ?_)
      rw [rd_gt (by omega), ok_bind]; rfl
    rw [this, ok_bind]; rfl
  · obtain ⟨h1, h2⟩ := s2 i hi
    refine ⟨block_of (by rw [(t2 i hi).size]; exact h1.1) (t2 i hi).bytes, metaOf_labelled h44 (t2 i hi) h1.1, ?_, fun x hx => ?_⟩
    · rw [(t2 i hi).payload h1.1]
      exact h2
    · rw [(t2 i hi).keep x (by omega), s4 i x hx]

theorem decode_any_ub (hc : c.Ok) (hb : c.b = 32) (hpkt : 0 < pkt) (hr : c.Reachable pkt R C H) {p n : Nat} [Fact p.Prime] {g : ZMod p} (r : c.Root p n g)
    (h44 : bs < 2 ^ 44) {V : Array (Array Nat)} {missing : Array Bool} (hM : c.AnyMem bs V missing)
    (hok : ∀ f, f < c.nOut → gt missing (c.first + f) = false → ∃ l, metaOf bs (gt V (c.first + f)) = .marks l) (hn : c.k ≤ missing.toList.count false)
    (mem : Nat → Nat) (junk : Nat → Nat → Nat) (hkm : c.nOut < c.k) :
    decode R V missing bs mem junk H = .error .ub := by
  obtain ⟨props, e1, p1, p2⟩ := deserLoop_any h44 (anyRec hM) hok
  obtain ⟨V1, H', hr', s1, s2, s3, s4, e⟩ := decode_any_eq hc hb hpkt hr r h44 hM e1 p1 p2 hn mem junk
  have hsz := hM.size
  rw [e, serLoop_stuck (j0 := c.nOut) (x := .ub) (fun _ _ _ _ _ _ h => h) (by omega) (by omega) (by simp [rd, p1, ub]) (fun j _ hj => by
    obtain ⟨b', e, _⟩ := serialize_labelled (bs := bs) h44 (s2 j (by omega)).1 (P := .empty) (by show 0 + 2 < _; unfold metaLen; omega)
    exact ⟨by omega, .empty, by rw [rd_gt (by omega), ok_bind]; rfl, b', e⟩)]
  rfl

end Quad.CApi
