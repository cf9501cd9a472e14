import Verif.Lemmas.CApi

/-!
# Reconstruction
-/

namespace Quad.CApi
open Quad.Spec Quad.Props

variable {c : FntCode} {pkt : Nat} {R : RsFntObj} {C : CtxB} {H : Heap} {frags : Array (List Nat)} {fprops : Array Properties} {bs : Nat}
  {U U' V : Array (Array Nat)} {wanted missing : Array Bool} {d : Nat}

theorem gt_out {α : Type} [Inhabited α] {a : Array α} {i : Nat} (h : a.size ≤ i) : gt a i = default := by
  unfold gt; rw [Array.getD_eq_getD_getElem?, Array.getElem?_eq_none h]; rfl

/-- block `d` is restored, up to the last word of its metadata and the bytes after its last word; other blocks are unchanged -/
structure Restored (c : FntCode) (bs d : Nat) (U' V V' : Array (Array Nat)) : Prop where
  size : V'.size = V.size
  dsize : (gt V' d).size = (gt V d).size
  byte : ∀ x, x < metadata_size bs + bs / c.w * c.w → metadata_size bs ≤ x + 4 → x < metadata_size bs → gt (gt V' d) x = gt (gt V d) x
  back : ∀ x, x + 4 < metadata_size bs ∨ metadata_size bs ≤ x → x < metadata_size bs + bs / c.w * c.w → gt (gt V' d) x = gt (gt U' d) x
  rest : ∀ x, metadata_size bs + bs / c.w * c.w ≤ x → gt (gt V' d) x = gt (gt V d) x
  other : ∀ b, b ≠ d → gt V' b = gt V b

/-- writing the metadata of a block whose payload is restored -/
theorem restored_of {V1 : Array (Array Nat)} {P : Properties} (hd : d < V.size) (h44 : bs < 2 ^ 44) (hB' : (gt U' d).size = metadata_size bs + bs)
    (hB : Block bs (gt V1 d))
    (hP : P.props.length + 2 < metaLen bs) (hl : ∀ x, x + 4 < metadata_size bs → gt (gt U' d) x = metaWord P (x / 4) / 256 ^ (x % 4) % 256)
    (hsz : V1.size = V.size) (hds : (gt V1 d).size = (gt V d).size)
    (hpay : ∀ y, y < bs / c.w * c.w → gt (gt V1 d) (metadata_size bs + y) = (payload c.w bs (gt U' d)).getD y 0)
    (hrest : ∀ x, x < metadata_size bs ∨ metadata_size bs + bs / c.w * c.w ≤ x → gt (gt V1 d) x = gt (gt V d) x)
    (hoth : ∀ b, b ≠ d → gt V1 b = gt V b) {pr : Nat → Res Properties} (hpr : pr 0 = .ok P) :
    ∃ V', serLoop (metadata_size bs) (fun _ => d) pr 1 0 V1 = .ok (0, V') ∧ Restored c bs d U' V V' := by
  obtain ⟨b', e, l⟩ := serialize_labelled h44 hB hP
  have hd1 : d < V1.size := by omega
  have hg : gt (V1.setIfInBounds d b') d = b' := by rw [gt_set hd1, if_pos rfl]
  refine ⟨V1.setIfInBounds d b', ?_, by simpa using hsz, by rw [hg, l.size, hds], fun x h1 h2 h3 => ?_, fun x h1 h2 => ?_, fun x h1 => ?_, fun b hb => ?_⟩
  · rw [serLoop, hpr, ok_bind, rd_gt hd1, ok_bind, e, ok_bind]
    simp only
    rw [wr_ok hd1, ok_bind, if_neg (by decide)]
    rfl
  · rw [hg, l.keep x h2, hrest x (.inl h3)]
  · rw [hg]
    rcases h1 with h1 | h1
    · rw [l.words x h1, hl x h1]
    · rw [l.keep x (by omega)]
      have := hpay (x - metadata_size bs) (by omega)
      rw [payload_getD (by omega), show metadata_size bs + (x - metadata_size bs) = x by omega] at this
      exact this
  · rw [hg, l.keep x (by omega), hrest x (.inr h1)]
  · rw [gt_set hd1, if_neg hb, hoth b hb]

/-- a data block of the systematic code -/
theorem reconstruct_data (hc : c.Ok) (hb : c.b = 32) (hpkt : 0 < pkt) (hr : c.Reachable pkt R C H) (hU : c.Mem bs U)
    (he : c.Encoded (c.dataOf bs U) frags fprops) (h32 : bs < 2 ^ 32) (hcd : Coded c bs U wanted frags fprops U')
    (hl : c.Lost U' wanted V missing) (hs : c.sys = true) (hd : d < c.k) (hV : Block bs (gt V d)) (hn : c.k ≤ missing.toList.count false)
    (mem : Nat → Nat) (junk : Nat → Nat → Nat) (hkm : c.k ≤ c.m) :
    ∃ V' H', reconstruct R C V missing d bs mem junk H = .ok (0, V', C, H') ∧ Restored c bs d U' V V' ∧ c.Reachable pkt R C H' := by
  have hO := obj_of hc hr
  have hno := @nOut_first c
  have hout : c.nOut = c.m := by simp [FntCode.nOut, hs]
  have hdt := dataOf_data (c := c) (bs := bs) (fun i hi => hU.block i (by omega))
  have hTb : bs / c.w * c.w ≤ bs := Nat.div_mul_le_self _ _
  have hVs := hl.size
  obtain ⟨props, e1, p1, p2⟩ := deserLoop_lost hc hU he h32 hcd hl
  have hwg : ∀ i, gt ((Array.replicate c.nOut false).setIfInBounds d true) i = true → i = d := fun i h => by
    rw [gt_set (by simp; omega)] at h
    split at h
    · assumption
    · by_cases hi : i < c.nOut
      · rw [gt_replicate hi] at h; cases h
      · rw [gt_out (by simpa using hi)] at h; cases h
  obtain ⟨V1, H', e2, hr', s1, s2, s3, s4⟩ := decodeU_mem hc hdt he rfl hpkt hr (U := V) (tp := ptrs (metadata_size bs) 0 c.k)
    (dp := ptrs (metadata_size bs) c.first c.nOut) (props := props) (missing := missing)
    (wanted := (Array.replicate c.nOut false).setIfInBounds d true) mem junk (size_ptrs _ _ _) (size_ptrs _ _ _) p1 hl.msize
    (fun f hf hm => by
      rw [first_add] at hm
      refine ⟨?_, p2 f hf hm⟩
      rw [gt_ptrs hf]
      exact lost_frag hcd hl hf hm)
    (fun hs i hi hm => by
      rw [gt_ptrs hi, Nat.zero_add]
      exact lost_data hcd hl hs hi hm)
    (fun i hi hwi => by
      have := hwg i hwi
      subst this
      refine ⟨(0 + i, metadata_size bs), gt_ptrs hi, by simp only; omega, ?_⟩
      simp only [Nat.zero_add]
      rw [hV.1]; omega)
    (distinct_ptrs _ _ _) (compatible_ptrs _ _ _ _ _) (by simp; omega) hn
  have hpay : ∀ y, y < bs / c.w * c.w → gt (gt V1 d) (metadata_size bs + y) = (payload c.w bs (gt U d)).getD y 0 := by
    intro y hy
    have := s3 d _ y hd (.inl (by rw [gt_set (by simp; omega), if_pos rfl])) (gt_ptrs hd) hy
    rw [← dataOf_gt hd]
    simpa using this
  have hB1 : Block bs (gt V1 d) := by
    refine block_of (by rw [s2]; exact hV.1) (fun x => ?_)
    by_cases hx : metadata_size bs ≤ x ∧ x < metadata_size bs + bs / c.w * c.w
    · have := hpay (x - metadata_size bs) (by omega)
      rw [show metadata_size bs + (x - metadata_size bs) = x by omega, payload_getD (by omega)] at this
      rw [this]
      exact block_gt (hU.block d (by omega)) _
    · rw [s4 d x (fun j base h1 _ h3 => by
        rw [gt_ptrs h1] at h3
        simp at h3
        omega)]
      exact block_gt hV x
  obtain ⟨U1, q1, q2⟩ := hcd.ex
  have hbp : blockProps c fprops d = .empty := by unfold blockProps FntCode.first; rw [hs]; exact if_pos hd
  obtain ⟨V', e3, hR⟩ := restored_of (c := c) (U' := U') (V := V) (V1 := V1) (P := .empty) (d := d) (bs := bs) (by omega) (by omega)
    (hcd.block (by omega)).1 hB1 (by show 0 + 2 < _; unfold metaLen; omega)
    (fun x hx => by rw [← hbp]; exact (q2 d (by omega)).words x hx) s1 (s2 d) (fun y hy => by rw [hcd.data hs hd]; exact hpay y hy)
    (fun x hx => s4 d x (fun j base h1 _ h3 => by
        rw [gt_ptrs h1] at h3
        simp at h3
        omega))
    (fun b hb => gt_ext (s2 b) (fun x _ => s4 b x (fun j base h1 h2 h3 => by
        have := hwg j h2
        rw [gt_ptrs h1] at h3
        simp at h3
        omega))) (pr := fun _ => .ok .empty) rfl
  refine ⟨V', H', ?_, hR, hr'⟩
  rw [hb] at e2
  unfold reconstruct
  simp only
  rw [hO.len, if_neg (by have := hl.msize; omega), firstOut_eq hO, hO.out, e1, ok_bind]
  simp only
  rw [hO.sys, hO.k, if_pos ⟨hs, hd⟩, wr_ok (by simp; omega), ok_bind, extract_all _ hl.msize, e2, ok_bind]
  simp only [if_true]
  rw [e3, ok_bind]; rfl

/-- an output fragment -/
theorem reconstruct_output (hc : c.Ok) (hb : c.b = 32) (hpkt : 0 < pkt) (hr : c.Reachable pkt R C H) (hU : c.Mem bs U)
    (he : c.Encoded (c.dataOf bs U) frags fprops) (h32 : bs < 2 ^ 32) (hcd : Coded c bs U wanted frags fprops U') (hfit : Fits c bs fprops)
    (hl : c.Lost U' wanted V missing) (hd1 : c.first ≤ d) (hd2 : d < c.k + c.m) (hwd : gt wanted (d - c.first) = true)
    (hV : Block bs (gt V d)) (hn : c.k ≤ missing.toList.count false) (mem : Nat → Nat) (junk : Nat → Nat → Nat) :
    ∃ V' C' H', reconstruct R C V missing d bs mem junk H = .ok (0, V', C', H') ∧ Restored c bs d U' V V' ∧ c.Reachable pkt R C' H' := by
  have hO := obj_of hc hr
  have hno := @nOut_first c
  have hdt := dataOf_data (c := c) (bs := bs) (fun i hi => hU.block i (by omega))
  obtain ⟨z1, z2, z3, z4, z5⟩ := encoded_facts hc hdt he
  have hTb : bs / c.w * c.w ≤ bs := Nat.div_mul_le_self _ _
  have hVs := hl.size
  obtain ⟨props, e1, p1, p2⟩ := deserLoop_lost hc hU he h32 hcd hl
  let tmp : Nat → Bool := fun i => !c.sys || gt missing i
  let W : Array (Array Nat) := V ++ Array.ofFn (fun i : Fin c.k => if tmp i then Array.replicate bs 0 else #[])
  let datas : Array Ptr := Array.ofFn (fun i : Fin c.k => if tmp i then some (V.size + i.1, 0) else some (i.1, metadata_size bs))
  let wd : Array Bool := Array.ofFn (fun i : Fin c.k => tmp i.1)
  have hWs : W.size = V.size + c.k := by simp [W]
  have hWlt : ∀ b, b < V.size → gt W b = gt V b := fun b hb => by
    show gt (V ++ _) b = _
    rw [gt_append, if_pos hb]
  have hWtmp : ∀ i, i < c.k → tmp i = true → gt W (V.size + i) = Array.replicate bs 0 := fun i hi ht => by
    show gt (V ++ _) (V.size + i) = _
    rw [gt_append, if_neg (by omega), show V.size + i - V.size = i by omega, gt_ofFn hi, if_pos ht]
  have hdg : ∀ i, i < c.k → gt datas i = if tmp i then some (V.size + i, 0) else some (i, metadata_size bs) := fun i hi => gt_ofFn hi
  have hwg : ∀ i, i < c.k → gt wd i = tmp i := fun i hi => gt_ofFn hi
  have hhold : ∀ {b : Nat} {s : List Nat}, b < V.size → Holds V (some (b, metadata_size bs)) s → Holds W (some (b, metadata_size bs)) s := by
    rintro b s hb ⟨q, h1, h2, h3, h4, h5⟩
    cases h1
    refine ⟨_, rfl, by simp only; omega, ?_⟩
    simp only at h3 h4 h5 ⊢
    rw [hWlt b hb]
    exact ⟨h3, h4, h5⟩
  have hhd : c.sys = true → ∀ i, i < c.k → gt missing i = false → Holds W (gt datas i) (gt (c.dataOf bs U) i) := by
    intro hs i hi hm
    rw [hdg i hi, if_neg (by simp [tmp, hs, hm])]
    exact hhold (by omega) (lost_data hcd hl hs hi hm)
  -- the data is restored in the temporary blocks
  have hdec : ∃ W1 H1, (if wd.any id then
        decodeU (R.fecV 32) datas (ptrs (metadata_size bs) c.first c.nOut) props missing wd bs mem junk W H
      else pure (true, W, H)) = .ok (true, W1, H1) ∧ c.Reachable pkt R C H1 ∧ W1.size = W.size ∧ (∀ b, b < V.size → gt W1 b = gt V b) ∧
      ∀ i, i < c.k → Holds W1 (gt datas i) (gt (c.dataOf bs U) i) := by
    cases hany : wd.any id with
    | true =>
      obtain ⟨W1, H1, e2, hr', s1, s2, s3, s4⟩ := decodeU_mem hc hdt he rfl hpkt hr (U := W) (tp := datas)
        (dp := ptrs (metadata_size bs) c.first c.nOut) (props := props) (missing := missing) (wanted := wd) mem junk (size_ptrs _ _ _)
        (by simp [datas]) p1 hl.msize
        (fun f hf hm => by
          rw [first_add] at hm
          refine ⟨?_, p2 f hf hm⟩
          rw [gt_ptrs hf]
          exact hhold (by omega) (lost_frag hcd hl hf hm))
        hhd
        (fun i hi hwi => by
          rw [hwg i hi] at hwi
          refine ⟨(V.size + i, 0), by rw [hdg i hi, if_pos hwi], by simp only; omega, ?_⟩
          simp only
          rw [hWtmp i hi hwi]; simp; omega)
        (by
          intro f f' b base base' h1 h2 h3 h4
          rw [hdg f h1] at h3
          rw [hdg f' h2] at h4
          split at h3 <;> split at h4 <;> simp at h3 h4 <;> omega)
        (by
          intro j f b base base' h1 h2 h3 h4
          rw [size_ptrs] at h1
          rw [gt_ptrs h1] at h3
          rw [hdg f h2] at h4
          split at h4 <;> simp at h3 h4 <;> omega)
        (by simp [wd]) hn
      have hlow : ∀ b, b < V.size → gt W1 b = gt V b := fun b hb => by
        rw [← hWlt b hb]
        refine gt_ext (s2 b) (fun x _ => s4 b x (fun i base h1 h2 h3 => ?_))
        rw [hwg i h1] at h2
        rw [hdg i h1, if_pos h2] at h3
        simp at h3
        omega
      rw [hb] at e2
      refine ⟨W1, H1, by rw [if_pos rfl]; exact e2, hr', s1, hlow, fun i hi => ?_⟩
      by_cases ht : tmp i = true
      · have hq : gt datas i = some (V.size + i, 0) := by rw [hdg i hi, if_pos ht]
        have hby : ∀ y, y < bs / c.w * c.w → gt (gt W1 (V.size + i)) y = (gt (c.dataOf bs U) i).getD y 0 := fun y hy => by
          have := s3 i _ y hi (.inl (by rw [hwg i hi]; exact ht)) hq hy
          simpa using this
        refine ⟨(V.size + i, 0), hq, by simp only; omega, ?_, ?_, ?_⟩
        · simp only
          rw [s2, hWtmp i hi ht, hdt.len i hi]; simp; omega
        · intro x
          by_cases hx : x < bs / c.w * c.w
          · simp only
            rw [hby x hx, dataOf_gt hi, payload_getD hx]
            exact block_gt (hU.block i (by omega)) _
          · simp only
            rw [s4 (V.size + i) x (fun j base h1 h2 h3 => by
              rw [hwg j h1] at h2
              rw [hdg j h1, if_pos h2] at h3
              simp at h3
              omega), hWtmp i hi ht]
            by_cases hx2 : x < bs
            · rw [gt_replicate hx2]; decide
            · rw [gt_oob (by simpa using hx2)]; decide
        · intro y hy
          rw [hdt.len i hi] at hy
          simp only [Nat.zero_add]
          exact hby y hy
      · have hsm : c.sys = true ∧ gt missing i = false := by simpa [tmp] using ht
        have h0 := lost_data hcd hl hsm.1 hi hsm.2
        rw [hdg i hi, if_neg ht]
        obtain ⟨q, h1, h2, h3, h4, h5⟩ := h0.ex
        cases h1
        refine ⟨_, rfl, by simp only; omega, ?_⟩
        simp only at h3 h4 h5 ⊢
        rw [hlow i (by omega)]
        exact ⟨h3, h4, h5⟩
    | false =>
      have hnt : ∀ i, i < c.k → tmp i = false := by
        intro i hi
        have := (Array.any_eq_false.mp hany) i (by simpa [wd] using hi)
        simpa [wd] using this
      refine ⟨W, H, rfl, hr, rfl, hWlt, fun i hi => ?_⟩
      have h0 : c.sys = true ∧ gt missing i = false := by simpa [tmp] using hnt i hi
      exact hhd h0.1 i hi h0.2
  obtain ⟨W1, H1, e2, hr1, y1, y2, y3⟩ := hdec
  have hdn : d - c.first < c.nOut := by omega
  have hfd : c.first + (d - c.first) = d := by omega
  let wn : Array Bool := (Array.replicate c.nOut false).setIfInBounds (d - c.first) true
  have hwn : ∀ i, gt wn i = true → i = d - c.first := fun i h => by
    rw [gt_set (by simpa using hdn)] at h
    split at h
    · assumption
    · by_cases hi : i < c.nOut
      · rw [gt_replicate hi] at h; cases h
      · rw [gt_out (by simpa using hi)] at h; cases h
  obtain ⟨W2, C2, H2, e3, hr2, s1, s2, s3, s4⟩ := encodeU_mem hc hdt he rfl hpkt hr1 (U := W1) (dp := datas)
    (tp := ptrs (metadata_size bs) c.first c.nOut) (props := props) (wanted := wn) junk (by simp [datas]) y3 (size_ptrs _ _ _)
    (fun f hf hwf => by
      have := hwn f hwf
      subst this
      refine ⟨(c.first + (d - c.first), metadata_size bs), gt_ptrs hf, by simp only; omega, ?_⟩
      simp only [hfd]
      rw [y2 d (by omega), hV.1]; omega)
    (distinct_ptrs _ _ _)
    (by
      intro j f b base base' h1 h2 h3 h4
      have h1' : j < c.k := by simpa [datas] using h1
      rw [gt_ptrs h2] at h4
      rw [hdg j h1'] at h3
      split at h3 <;> simp at h3 h4 <;> omega)
    p1 (by simp [wn])
  have hpay : ∀ y, y < bs / c.w * c.w → gt (gt W2 d) (metadata_size bs + y) = (gt frags (d - c.first)).getD y 0 := fun y hy => by
    have := s3 (d - c.first) _ y hdn (by rw [gt_set (by simpa using hdn), if_pos rfl]) (gt_ptrs hdn) hy
    simpa only [hfd] using this
  have hkeep : ∀ b x, b ≠ d ∨ x < metadata_size bs ∨ metadata_size bs + bs / c.w * c.w ≤ x → gt (gt W2 b) x = gt (gt W1 b) x := fun b x h =>
    s4 b x (fun f base h1 h2 h3 => by
      have := hwn f h2
      rw [gt_ptrs h1] at h3
      simp at h3
      omega)
  have hB2 : Block bs (gt W2 d) := by
    refine block_of (by rw [s2, y2 d (by omega)]; exact hV.1) (fun x => ?_)
    by_cases hx : metadata_size bs ≤ x ∧ x < metadata_size bs + bs / c.w * c.w
    · have := hpay (x - metadata_size bs) (by omega)
      rw [show metadata_size bs + (x - metadata_size bs) = x by omega] at this
      rw [this]
      exact z4 _ hdn _
    · rw [hkeep d x (by omega), y2 d (by omega)]
      exact block_gt hV x
  obtain ⟨U1, q1, q2⟩ := hcd.ex
  have hbp : blockProps c fprops d = gt fprops (d - c.first) := by unfold blockProps; rw [if_neg (by omega)]
  obtain ⟨W3, e4, hR⟩ := restored_of (c := c) (U' := U') (V := W1) (V1 := W2) (P := gt fprops (d - c.first)) (d := d) (bs := bs) (by omega)
    (by omega) (hcd.block (by omega)).1 hB2 (hfit _ hdn) (fun x hx => by rw [← hbp]; exact (q2 d (by omega)).words x hx) s1 (s2 d)
    (fun y hy => by
      have := hcd.frag hdn hwd
      rw [hfd] at this
      rw [this]; exact hpay y hy)
    (fun x hx => hkeep d x (.inr hx)) (fun b hb => gt_ext (s2 b) (fun x _ => hkeep b x (.inl hb))) (pr := fun _ => rd fprops (d - c.first))
    (by rw [rd_gt (by omega)])
  have hg3 : ∀ b, b < V.size → gt (W3.extract 0 V.size) b = gt W3 b := fun b hb => by
    rw [gt_extract (by omega) (by rw [hR.size, y1]; omega), Nat.zero_add]
  refine ⟨W3.extract 0 V.size, C2, H2, ?_, ?_, hr2⟩
  · rw [hb] at e3
    have hnot : ¬ (c.sys = true ∧ d < c.k) := fun h => by
      have : c.first = c.k := by simp [FntCode.first, h.1]
      omega
    unfold reconstruct
    simp only
    rw [hO.len, if_neg (by have := hl.msize; omega), firstOut_eq hO, hO.out, e1, ok_bind]
    simp only
    rw [hO.sys, hO.k, if_neg hnot, extract_all _ hl.msize]
    refine Eq.trans (congrArg (fun z => z >>= _) e2) ?_
    rw [ok_bind]
    simp only [if_true]
    rw [wr_ok (by simpa using hdn), ok_bind]
    refine Eq.trans (congrArg (fun z => z >>= _) e3) ?_
    rw [ok_bind]
    simp only
    rw [e4, ok_bind]; rfl
  · have hW3 : W3.size = V.size + c.k := by rw [hR.size, y1, hWs]
    refine ⟨by simp [hW3], ?_, fun x h1 h2 h3 => ?_, fun x h1 h2 => ?_, fun x h1 => ?_, fun b hb => ?_⟩
    · rw [hg3 d (by omega), hR.dsize, y2 d (by omega)]
    · rw [hg3 d (by omega), hR.byte x h1 h2 h3, y2 d (by omega)]
    · rw [hg3 d (by omega), hR.back x h1 h2]
    · rw [hg3 d (by omega), hR.rest x h1, y2 d (by omega)]
    · by_cases hbs : b < V.size
      · rw [hg3 b hbs, hR.other b hb, y2 b hbs]
      · rw [gt_out (by simp [hW3]; omega), gt_out (by omega)]

theorem forN_add {σ : Type _} (a b : Nat) (s : σ) (f : Nat → σ → Res σ) :
    forN (a + b) s f = forN a s f >>= fun s => forN b s (fun i => f (a + i)) := by
  induction b with
  | zero => cases forN a s f <;> rfl
  | succ b ih =>
    rw [← Nat.add_assoc]
    show (forN (a + b) s f >>= f (a + b)) = _
    rw [ih]
    cases forN a s f <;> rfl

/-- too short a list of wanted blocks -/
theorem writeU_short {n : Nat} {w w2 : Array Bool} {off len : Nat} {oc : Array (Array Nat)} {p : Array Ptr} {U U' : Array (Array Nat)}
    (hn : w.size < n) (hw : ∀ i, i < w.size → gt w2 i = gt w i) (hw2 : n ≤ w2.size) (h : writeU n w2 off len oc p U = .ok U') :
    writeU n w off len oc p U = .error .ub := by
  unfold writeU at h ⊢
  rw [show n = w.size + ((n - w.size - 1) + 1) by omega, forN_add] at h ⊢
  obtain ⟨U1, h1, h2⟩ := bind_ok h
  obtain ⟨U2, h3, rfl⟩ := forN_sim (fun _ x y => x = y) h1 (rfl : U = U) (by
    rintro k x y z hk rfl hz
    rw [rd_gt (by omega), hw k hk, ← rd_gt hk] at hz
    exact ⟨z, hz, rfl⟩)
  rw [h3, ok_bind]
  refine forN_first_error (by omega) ?_
  rw [Nat.add_zero]
  simp [rd, ub]

theorem decLoopU_short {E : FecV} {words output : Bufs} {ids apar : Array Nat} {nd : Nat} {datas pars : Array Ptr} {props : Array Properties}
    {w w2 : Array Bool} {block_size fuel : Nat} {U U' : Array (Array Nat)} {s : DecSt} {H' : Heap} (hT : 0 < block_size)
    (hn : w.size < E.base.n_data) (hw : ∀ i, i < w.size → gt w2 i = gt w i) (hw2 : E.base.n_data ≤ w2.size)
    (h : decLoopU E words output ids apar nd datas pars props w2 block_size fuel U 0 s = .ok (U', H')) :
    decLoopU E words output ids apar nd datas pars props w block_size fuel U 0 s = .error .ub := by
  cases fuel with
  | zero => cases h
  | succ fuel =>
    rw [decLoopU, if_pos hT] at h ⊢
    simp only at h ⊢
    obtain ⟨wc, e1, h⟩ := bind_ok h
    rw [e1, ok_bind]
    obtain ⟨wc, e2, h⟩ := bind_ok h
    rw [e2, ok_bind]
    obtain ⟨s, e3, h⟩ := bind_ok h
    rw [e3, ok_bind]
    obtain ⟨U, e4, h⟩ := bind_ok h
    rw [writeU_short hn hw hw2 e4, error_bind]

theorem decodeU_short {E : FecV} {datas pars : Array Ptr} {props : Array Properties} {missing w w2 : Array Bool} {bs : Nat} {mem : Nat → Nat}
    {junk : Nat → Nat → Nat} {U U' : Array (Array Nat)} {H H' : Heap} (hk : 0 < E.base.n_data) (hs : E.base.sys = true)
    (hm : missing.size = E.base.n_data + E.base.n_outputs) (hlost : ∃ i, i < E.base.n_data ∧ gt missing i = true)
    (hT : 0 < bs / E.base.word_size)
    (hn : w.size < E.base.n_data) (hw : ∀ i, i < w.size → gt w2 i = gt w i) (hw2 : E.base.n_data ≤ w2.size)
    (h : decodeU E datas pars props missing w2 bs mem junk U H = .ok (true, U', H')) :
    decodeU E datas pars props missing w bs mem junk U H = .error .ub := by
  have hsel := E.base.selectFragments_spec hk (data := missing.map (fun b => !b))
    (parities := (missing.map (fun b => !b)).extract E.base.n_data (missing.map (fun b => !b)).size) mem
    (fun h => by rw [Array.size_map, hm]; omega) (by rw [Array.size_extract, Array.size_map]; omega)
  have hdl : E.base.dataList (missing.map (fun b => !b)) = present (missing.map (fun b => !b)) E.base.n_data := by
    unfold FecBase.dataList; rw [if_pos hs]
  have hall := present_not_all (missing := missing) (k := E.base.n_data) (by omega)
  have hne : ¬ (E.base.dataList (missing.map (fun b => !b))).length = E.base.n_data := by
    rw [hdl, hall]
    obtain ⟨i, h1, h2⟩ := hlost
    intro h
    rw [h i h1] at h2
    cases h2
  rw [if_neg hne] at hsel
  unfold decodeU at h ⊢
  simp only [hs, if_true] at h ⊢
  obtain ⟨_, e1, h⟩ := bind_ok h
  rw [e1, ok_bind]
  obtain ⟨_, e2, h⟩ := bind_ok h
  rw [e2, ok_bind]
  obtain ⟨_, e3, h⟩ := bind_ok h
  rw [e3, ok_bind]
  rw [hsel, ok_bind] at h ⊢
  split at h
  · rename_i heq
    split at heq <;> cases heq
  · cases h
  · rename_i ids apar nd heq
    obtain ⟨x, e4, h⟩ := bind_ok h
    rw [e4, ok_bind]
    obtain ⟨y, e5, h⟩ := bind_ok h
    rw [decLoopU_short hT hn hw hw2 e5, error_bind]

/-- reconstruction of a lost data block when there are fewer parities than data fragments -/
theorem reconstruct_ub (hc : c.Ok) (hb : c.b = 32) (hpkt : 0 < pkt) (hr : c.Reachable pkt R C H) (hU : c.Mem bs U)
    (he : c.Encoded (c.dataOf bs U) frags fprops) (h32 : bs < 2 ^ 32) (hcd : Coded c bs U wanted frags fprops U')
    (hl : c.Lost U' wanted V missing) (hs : c.sys = true) (hd : d < c.k) (hV : Block bs (gt V d)) (hn : c.k ≤ missing.toList.count false)
    (hmd : gt missing d = true) (hT : 0 < bs / c.w) (mem : Nat → Nat) (junk : Nat → Nat → Nat) (hkm : c.m < c.k) :
    reconstruct R C V missing d bs mem junk H = .error .ub := by
  have hO := obj_of hc hr
  have hno := @nOut_first c
  have hout : c.nOut = c.m := by simp [FntCode.nOut, hs]
  have hdt := dataOf_data (c := c) (bs := bs) (fun i hi => hU.block i (by omega))
  have hTb : bs / c.w * c.w ≤ bs := Nat.div_mul_le_self _ _
  have hVs := hl.size
  have hms := hl.msize
  obtain ⟨props, e1, p1, p2⟩ := deserLoop_lost hc hU he h32 hcd hl
  unfold reconstruct
  simp only
  rw [hO.len, if_neg (by omega), firstOut_eq hO, hO.out, e1, ok_bind]
  simp only
  rw [hO.sys, hO.k, if_pos ⟨hs, hd⟩]
  by_cases hdm : d < c.m
  · rw [wr_ok (by simp; omega), ok_bind, extract_all _ hl.msize]
    have hwg : ∀ i, gt ((Array.replicate c.k false).setIfInBounds d true) i = true → i = d := fun i h => by
      rw [gt_set (by simp; omega)] at h
      split at h
      · assumption
      · by_cases hi : i < c.k
        · rw [gt_replicate hi] at h; cases h
        · rw [gt_out (by simpa using hi)] at h; cases h
    obtain ⟨V1, H', e2, _⟩ := decodeU_mem hc hdt he rfl hpkt hr (U := V) (tp := ptrs (metadata_size bs) 0 c.k)
      (dp := ptrs (metadata_size bs) c.first c.nOut) (props := props) (missing := missing)
      (wanted := (Array.replicate c.k false).setIfInBounds d true) mem junk (size_ptrs _ _ _) (size_ptrs _ _ _) p1 hl.msize
      (fun f hf hm => by
        rw [first_add] at hm
        refine ⟨?_, p2 f hf hm⟩
        rw [gt_ptrs hf]
        exact lost_frag hcd hl hf hm)
      (fun hs i hi hm => by
        rw [gt_ptrs hi, Nat.zero_add]
        exact lost_data hcd hl hs hi hm)
      (fun i hi hwi => by
        have := hwg i hwi
        subst this
        refine ⟨(0 + i, metadata_size bs), gt_ptrs hi, by simp only; omega, ?_⟩
        simp only [Nat.zero_add]
        rw [hV.1]; omega)
      (distinct_ptrs _ _ _) (compatible_ptrs _ _ _ _ _) (by simp) hn
    rw [hb] at e2
    have hk' : (R.fecV 32).base.n_data = c.k := hO.k
    rw [decodeU_short (w2 := (Array.replicate c.k false).setIfInBounds d true) (by rw [hk']; exact hc.hk) (hO.sys.trans hs)
      (by rw [hk', show (R.fecV 32).base.n_outputs = c.nOut from hO.out]; omega) ⟨d, by rw [hk']; exact hd, hmd⟩
      (by rw [show (R.fecV 32).base.word_size = c.w from hO.w]; exact hT) (by rw [hk']; simp; omega) (fun i hi => by
        have hi' : i < c.nOut := by simpa using hi
        rw [gt_set (by simp; omega), gt_set (by simp; omega)]
        split
        · rfl
        · rw [gt_replicate (by omega), gt_replicate (by omega)]) (by rw [hk']; simp) e2, error_bind]
  · have : wr (Array.replicate c.nOut false) d true = .error .ub := by simp [wr, ub]; omega
    rw [this, error_bind]

/-- too few fragments -/
theorem decodeU_few {E : FecV} {datas pars : Array Ptr} {props : Array Properties} {missing w : Array Bool} {bs : Nat} {mem : Nat → Nat}
    {junk : Nat → Nat → Nat} {U : Array (Array Nat)} {H : Heap} (hk : 0 < E.base.n_data)
    (hd : datas.size = E.base.n_data) (hp : pars.size = E.base.n_outputs) (hq : props.size = E.base.n_outputs)
    (hm : missing.size = if E.base.sys then E.base.n_data + E.base.n_outputs else E.base.n_outputs)
    (hn : missing.toList.count false < E.base.n_data) :
    decodeU E datas pars props missing w bs mem junk U H = .ok (false, U, H) := by
  have hsel := E.base.selectFragments_spec hk (data := missing.map (fun b => !b))
    (parities := if E.base.sys then (missing.map (fun b => !b)).extract E.base.n_data (missing.map (fun b => !b)).size
      else missing.map (fun b => !b)) mem
    (fun h => by rw [Array.size_map, hm, if_pos h]; omega) (by
      split
      · rename_i h
        rw [if_pos h] at hm
        rw [Array.size_extract, Array.size_map]; omega
      · rename_i h
        rw [if_neg h] at hm
        rw [Array.size_map]; omega)
  unfold decodeU
  by_cases hs : E.base.sys = true
  · rw [if_pos hs] at hm
    have hdl : E.base.dataList (missing.map (fun b => !b)) = present (missing.map (fun b => !b)) E.base.n_data := by
      unfold FecBase.dataList; rw [if_pos hs]
    have htot := present_not_split hm
    rw [if_pos hs] at hsel
    rw [hdl, htot] at hsel
    rw [if_neg (by omega), if_pos hn] at hsel
    simp only [hs, if_true, cassert, hd, hp, hq, decide_true, ok_bind, hsel]
    rfl
  · rw [if_neg hs] at hm
    have hdl : E.base.dataList (missing.map (fun b => !b)) = [] := by
      unfold FecBase.dataList; rw [if_neg hs]
    have htot := present_not_count hm
    rw [if_neg hs] at hsel
    rw [hdl, htot, List.length_nil, if_neg (by omega), Nat.zero_add, if_pos hn] at hsel
    simp only [hs, Bool.false_eq_true, if_false, cassert, hp, hq, decide_true, if_true, pure, Except.pure, ok_bind, hsel]

theorem msize_eq (hl : c.Lost U' wanted V missing) : missing.size = if c.sys then c.k + c.nOut else c.nOut := by
  rw [hl.msize]; unfold FntCode.nOut; split <;> simp_all

theorem decode_few (hc : c.Ok) (hr : c.Reachable pkt R C H) (hU : c.Mem bs U)
    (he : c.Encoded (c.dataOf bs U) frags fprops) (h32 : bs < 2 ^ 32) (hcd : Coded c bs U wanted frags fprops U')
    (hl : c.Lost U' wanted V missing) (hn : missing.toList.count false < c.k) (mem : Nat → Nat)
    (junk : Nat → Nat → Nat) : decode R V missing bs mem junk H = .ok (-1, V, H) := by
  have hO := obj_of hc hr
  obtain ⟨props, e1, p1, p2⟩ := deserLoop_lost hc hU he h32 hcd hl
  have hk' : (R.fecV 32).base.n_data = c.k := hO.k
  have ho' : (R.fecV 32).base.n_outputs = c.nOut := hO.out
  have hs' : (R.fecV 32).base.sys = c.sys := hO.sys
  unfold decode
  simp only
  rw [hO.len, if_neg (by have := hl.msize; omega), firstOut_eq hO, hO.out, e1, ok_bind]
  simp only
  rw [extract_all _ hl.msize, hO.k, decodeU_few (by rw [hk']; exact hc.hk) (by rw [hk', size_ptrs]) (by rw [ho']; simp [availPtrs, hO.out])
    (by rw [ho']; exact p1) (by rw [hk', ho', hs']; exact msize_eq hl) (by rw [hk']; exact hn), ok_bind]
  rfl

theorem reconstruct_few (hc : c.Ok) (hr : c.Reachable pkt R C H) (hU : c.Mem bs U)
    (he : c.Encoded (c.dataOf bs U) frags fprops) (h32 : bs < 2 ^ 32) (hcd : Coded c bs U wanted frags fprops U')
    (hl : c.Lost U' wanted V missing) (hn : missing.toList.count false < c.k) (mem : Nat → Nat)
    (junk : Nat → Nat → Nat) (hd : d < c.k + c.m) (hkm : c.sys = true → c.k ≤ c.m) : reconstruct R C V missing d bs mem junk H = .ok (-1, V, C, H) := by
  have hO := obj_of hc hr
  obtain ⟨props, e1, p1, p2⟩ := deserLoop_lost hc hU he h32 hcd hl
  have hk' : (R.fecV 32).base.n_data = c.k := hO.k
  have ho' : (R.fecV 32).base.n_outputs = c.nOut := hO.out
  have hs' : (R.fecV 32).base.sys = c.sys := hO.sys
  have hfew : ∀ {datas : Array Ptr} {w : Array Bool} {W : Array (Array Nat)}, datas.size = c.k →
      decodeU (R.fecV 32) datas (ptrs (metadata_size bs) c.first c.nOut) props missing w bs mem junk W H = .ok (false, W, H) := fun h =>
    decodeU_few (by rw [hk']; exact hc.hk) (by rw [hk', h]) (by rw [ho', size_ptrs])
      (by rw [ho']; exact p1) (by rw [hk', ho', hs']; exact msize_eq hl) (by rw [hk']; exact hn)
  unfold reconstruct
  simp only
  rw [hO.len, if_neg (by have := hl.msize; omega), firstOut_eq hO, hO.out, e1, ok_bind]
  simp only
  rw [extract_all _ hl.msize, hO.k, hO.sys]
  by_cases h : c.sys = true ∧ d < c.k
  · have : c.nOut = c.m := by simp [FntCode.nOut, h.1]
    rw [if_pos h, wr_ok (by have := hkm h.1; simp; omega), ok_bind, hfew (size_ptrs _ _ _), ok_bind]
    rfl
  · rw [if_neg h]
    have hany : (Array.ofFn (fun i : Fin c.k => !c.sys || gt missing i.1)).any id = true := by
      by_contra hcon
      have hall := Array.any_eq_false.mp (Bool.eq_false_iff.mpr hcon)
      have hsm : ∀ i, i < c.k → c.sys = true ∧ gt missing i = false := fun i hi => by
        have := hall i (by simpa using hi)
        simpa using this
      have hs := (hsm 0 hc.hk).1
      have hm := msize_eq hl
      rw [if_pos hs] at hm
      have h1 := present_not_split hm
      have h2 := (present_not_all (missing := missing) (k := c.k) (by omega)).mpr (fun i hi => (hsm i hi).2)
      omega
    rw [if_pos hany, hfew (by simp), ok_bind]
    simp only [Bool.false_eq_true, if_false]
    have : (V ++ Array.ofFn (fun i : Fin c.k => if (!c.sys || gt missing i.1) = true then Array.replicate bs 0 else #[])).extract 0 V.size = V := by
      simp
    rw [this]; rfl

end Quad.CApi
