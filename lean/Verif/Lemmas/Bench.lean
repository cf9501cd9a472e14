import Verif.Lemmas.DriverCodes
import Verif.Props.Bench

/-!
# Runs of the benchmark
-/

namespace Quad.Bench
open Quad.Spec Quad.Driver

/-- number of marks set -/
def marked (a : Array Bool) : Nat := a.toList.countP id

theorem marked_set {a : Array Bool} {i : Nat} (hi : i < a.size) (h : gt a i = false) : marked (a.setIfInBounds i true) = marked a + 1 := by
  unfold marked
  rw [Array.toList_setIfInBounds, List.countP_set (by simpa using hi)]
  have : a.toList[i]'(by simpa using hi) = false := by rw [← h, gt_eq hi]; simp
  rw [this]
  simp

theorem marked_replicate (n : Nat) : marked (Array.replicate n false) = 0 := by
  unfold marked
  simp [List.countP_replicate]

theorem pick_spec {sys : Bool} {k m : Nat} {ids : Array Nat} (h : Order (k + m) ids) :
    ∃ d c, pick sys k (if sys then m else k + m) ids = .ok (d, c, (List.range k).countP (fun i => decide (sys = true ∧ gt ids i < k))) ∧ d.size = k ∧
      c.size = (if sys then m else k + m) ∧ marked d = (List.range k).countP (fun i => decide (sys = true ∧ gt ids i < k)) ∧ marked d + marked c = k := by
  have hs : ids.size = k + m := by have := h.length_eq; simpa using this
  have hlt : ∀ i, i < k + m → gt ids i < k + m := by
    intro i hi
    have : gt ids i ∈ List.range (k + m) := h.mem_iff.1 (by rw [gt_eq (by omega)]; simp)
    exact List.mem_range.1 this
  have hinj : ∀ i j, i < k + m → j < k + m → gt ids i = gt ids j → i = j := by
    intro i j hi hj e
    have hn : ids.toList.Nodup := h.nodup_iff.2 List.nodup_range
    refine (List.Nodup.getElem_inj_iff hn (hi := by simpa [hs] using hi) (hj := by simpa [hs] using hj)).1 ?_
    rw [gt_eq (by omega), gt_eq (by omega)] at e
    simpa using e
  unfold pick
  obtain ⟨⟨d, c, nb⟩, e, h1, h2, h3, h4, h5, _⟩ := forN_inv (n := k) (s := (Array.replicate k false, Array.replicate (if sys then m else k + m) false, 0))
    (f := fun i s => do
      let j ← rd ids i
      if sys then
        if j < k then do
          let d ← wr s.1 j true
          pure (d, s.2.1, s.2.2 + 1)
        else do
          let c ← wr s.2.1 (j - k) true
          pure (s.1, c, s.2.2)
      else do
        let c ← wr s.2.1 j true
        pure (s.1, c, s.2.2))
    (I := fun t s => s.1.size = k ∧ s.2.1.size = (if sys then m else k + m) ∧
      s.2.2 = (List.range t).countP (fun i => decide (sys = true ∧ gt ids i < k)) ∧ marked s.1 = s.2.2 ∧ marked s.1 + marked s.2.1 = t ∧
      ∀ i, t ≤ i → i < k + m → (sys = true → (gt ids i < k → gt s.1 (gt ids i) = false) ∧ (k ≤ gt ids i → gt s.2.1 (gt ids i - k) = false)) ∧
        (sys = false → gt s.2.1 (gt ids i) = false)) (by
      refine ⟨by simp, by simp, rfl, marked_replicate k, by simp [marked_replicate], fun i _ hi => ?_⟩
      have := hlt i hi
      refine ⟨fun hsys => ⟨fun q => gt_replicate q, fun q => gt_replicate (by rw [if_pos hsys]; omega)⟩, fun hsys => gt_replicate (by simp [hsys]; omega)⟩) (by
      rintro t ⟨d, c, nb⟩ ht ⟨h1, h2, h3, h4, h5, h6⟩
      simp only at h1 h2 h3 h4 h5 h6
      have htl := hlt t (by omega)
      rw [rd_gt (by omega), ok_bind]
      cases sys
      · simp only [Bool.false_eq_true, if_false] at *
        rw [wr_ok (by omega), ok_bind]
        refine ⟨_, rfl, h1, by simpa using h2, ?_, h4, ?_, fun i hi hi' => ?_⟩
        · rw [List.range_succ, List.countP_append, h3]; simp
        · simp only; rw [marked_set (by omega) ((h6 t le_rfl (by omega)).2 trivial)]; omega
        · refine ⟨fun q => q.elim, fun _ => ?_⟩
          rw [gt_set (by omega), if_neg (fun q => by have := hinj i t hi' (by omega) q; omega)]
          exact (h6 i (by omega) hi').2 trivial
      · simp only [if_true] at *
        by_cases hk : gt ids t < k
        · rw [if_pos hk, wr_ok (by omega), ok_bind]
          refine ⟨_, rfl, by simpa using h1, h2, ?_, ?_, ?_, fun i hi hi' => ⟨fun _ => ⟨fun q => ?_, fun q => ?_⟩, fun q => by simp at q⟩⟩
          · rw [List.range_succ, List.countP_append, h3]; simp [hk]
          · simp only; rw [marked_set (by omega) (((h6 t le_rfl (by omega)).1 trivial).1 hk)]; omega
          · simp only; rw [marked_set (by omega) (((h6 t le_rfl (by omega)).1 trivial).1 hk)]; omega
          · simp only; rw [gt_set (by omega), if_neg (fun q => by have := hinj _ _ hi' (by omega) q; omega)]
            exact ((h6 i (by omega) hi').1 trivial).1 q
          · exact ((h6 i (by omega) hi').1 trivial).2 q
        · rw [if_neg hk, wr_ok (by omega), ok_bind]
          refine ⟨_, rfl, h1, by simpa using h2, ?_, h4, ?_, fun i hi hi' => ⟨fun _ => ⟨fun q => ?_, fun q => ?_⟩, fun q => by simp at q⟩⟩
          · rw [List.range_succ, List.countP_append, h3]; simp [hk]
          · simp only; rw [marked_set (by omega) (((h6 t le_rfl (by omega)).1 trivial).2 (by omega))]; omega
          · exact ((h6 i (by omega) hi').1 trivial).1 q
          · simp only; rw [gt_set (by omega), if_neg (fun q' => by have := hinj i t hi' (by omega) (by omega); omega)]
            exact ((h6 i (by omega) hi').1 trivial).2 q)
  simp only at h1 h2 h3 h4 h5
  rw [e, h3]
  exact ⟨d, c, rfl, h1, h2, by omega, h5⟩

theorem get_avail_spec {sys : Bool} {k m : Nat} (hk : 0 < k) {l : List (Array Nat)} (h : Shuffles sys k (k + m) l) :
    ∃ d c, get_avail_chunks sys k (if sys then m else k + m) l = .ok (d, c) ∧ d.size = k ∧ c.size = (if sys then m else k + m) ∧
      marked d < k ∧ marked d + marked c = k ∧ (sys = false → marked d = 0) := by
  induction l with
  | nil => obtain ⟨_, ids, h, _⟩ := h; cases h
  | cons ids l ih =>
    obtain ⟨d, c, e, h1, h2, h3, h4⟩ := pick_spec (sys := sys) (h.1 ids (by simp))
    unfold get_avail_chunks
    rw [e, ok_bind]
    simp only
    have hle : (List.range k).countP (fun i => decide (sys = true ∧ gt ids i < k)) ≤ k := by
      have := List.countP_le_length (p := fun i => decide (sys = true ∧ gt ids i < k)) (l := List.range k)
      simpa using this
    by_cases hb : sys = true ∧ (List.range k).countP (fun i => decide (sys = true ∧ gt ids i < k)) = k
    · rw [if_pos (by simpa using hb)]
      refine ih ⟨fun x hx => h.1 x (by simp [hx]), ?_⟩
      obtain ⟨x, hx, hx'⟩ := h.2
      rcases List.mem_cons.1 hx with rfl | hx
      · obtain ⟨i, hi, hi'⟩ := hx' hb.1
        have := List.countP_eq_length.1 (show (List.range k).countP (fun i => decide (sys = true ∧ gt x i < k)) = (List.range k).length by
          rw [hb.2]; simp) i (List.mem_range.2 hi)
        simp at this
        omega
      · exact ⟨x, hx, hx'⟩
    · rw [if_neg (by simpa using hb)]
      refine ⟨d, c, rfl, h1, h2, ?_, h4, fun q => ?_⟩
      · rw [h3]
        cases sys
        · simpa using hk
        · have : ¬ (List.range k).countP (fun i => decide (true = true ∧ gt ids i < k)) = k := fun q => hb ⟨rfl, q⟩
          omega
      · rw [h3, q]; simp

theorem avail_streams {a : Array Bool} {l : List (Array Nat)} (h : a.size = l.length) : avail (streams a l) = marked a := by
  unfold avail streams marked
  simp only
  have : ∀ (a : List Bool) (l : List (Array Nat)), a.length = l.length →
      (List.zipWith (fun a c => if a then some c.toList else none) a l).countP Option.isSome = a.countP id := by
    intro a
    induction a with
    | nil => intro l _; simp
    | cons x a ih =>
      intro l hl
      cases l with
      | nil => simp at hl
      | cons y l =>
        rw [List.zipWith_cons_cons, List.countP_cons, List.countP_cons, ih l (by simpa using hl)]
        cases x <;> simp
  exact this _ _ (by simpa using h)

theorem streams_size (a : Array Bool) (l : List (Array Nat)) (h : a.size = l.length) : (streams a l).size = l.length := by
  unfold streams; simp [h]

theorem streams_at {a : Array Bool} {l : List (Array Nat)} (h : a.size = l.length) {i : Nat} (hi : i < l.length) :
    gt (streams a l) i = if gt a i then some l[i].toList else none := by
  rw [gt_eq (by rw [streams_size a l h]; exact hi), gt_eq (by omega)]
  unfold streams
  simp

theorem store_full {old : Array Nat} {s : List Nat} (h : s.length = old.size) : store old s = s.toArray := by
  unfold store
  rw [List.take_of_length_le (by omega), List.drop_of_length_le (by simpa using h.ge), List.append_nil]

theorem storeAll_eq {old l : List (Array Nat)} {o : Array (Option (List Nat))} (h1 : old.length = l.length) (h2 : o.size = l.length)
    (h : ∀ i (hi : i < l.length), gt o i = some l[i].toList ∧ l[i].size = (old[i]'(by omega)).size) : storeAll old o = l := by
  refine List.ext_getElem (by simp [storeAll, h1, h2]) (fun i hi hi' => ?_)
  obtain ⟨q1, q2⟩ := h i hi'
  rw [show (storeAll old o)[i]'hi = store (old[i]'(by omega)) ((o.toList[i]'(by simpa [h2] using hi')).getD []) from by simp [storeAll]]
  rw [gt_eq (by omega)] at q1
  rw [show o.toList[i]'(by simpa [h2] using hi') = some l[i].toList from by simpa using q1, Option.getD_some, store_full (by simpa using q2)]

theorem genAll_spec {size : Nat} (h0 : 0 < size) {l : List (Array Nat)} (hl : ∀ b ∈ l, b.size = size) (P : Prng) :
    ∃ l' P', genAll size l P = .ok (l', P') ∧ l'.length = l.length ∧ ∀ b ∈ l', Chunk size b ∧ check_chunk b size = .ok true := by
  induction l generalizing P with
  | nil => exact ⟨[], P, rfl, rfl, by simp⟩
  | cons b bs ih =>
    obtain ⟨b', P', e, h1, h2⟩ := Props.C70_generated P (hl b (by simp)) h0
    obtain ⟨bs', P'', e', h3, h4⟩ := ih (fun x hx => hl x (by simp [hx])) P'
    unfold genAll
    rw [e, ok_bind]
    simp only
    rw [e', ok_bind]
    refine ⟨b' :: bs', P'', rfl, by simp [h3], fun x hx => ?_⟩
    rcases List.mem_cons.1 hx with rfl | hx
    · exact ⟨h1, h2⟩
    · exact h4 x hx

theorem check_ok {size : Nat} {l : List (Array Nat)} (h : ∀ b ∈ l, check_chunk b size = .ok true) : check size l = .ok true := by
  induction l with
  | nil => rfl
  | cons b bs ih =>
    unfold check
    rw [h b (by simp), ok_bind, if_pos rfl]
    exact ih (fun x hx => h x (by simp [hx]))

variable {F : Coder} {Inv : F.σ → Prop} {sys : Bool} {size : Nat}

/-- the chunks hold correct data, and the code object can be used -/
structure Sound (Inv : F.σ → Prop) (size : Nat) (ds : List (Array Nat)) (st : State F.σ) : Prop where
  inv : Inv st.fec
  d : st.d = ds
  room : Room F.n_data F.n_outputs size st
  good : ∀ b ∈ ds, Chunk size b ∧ check_chunk b size = .ok true

/-- moreover the coded chunks are those of the data -/
structure Coded' (Inv : F.σ → Prop) (size : Nat) (frags : Array (List Nat)) (fprops : Array Properties) (ds : List (Array Nat))
    (st : State F.σ) : Prop extends Sound Inv size ds st where
  c : st.c.map Array.toList = frags.toList
  props : st.props = fprops

/-- the data as the coder sees it -/
abbrev dataOf (d : List (Array Nat)) : Array (List Nat) := (d.map Array.toList).toArray

theorem dataOf_at {d : List (Array Nat)} {i : Nat} (hi : i < d.length) : gt (dataOf d) i = d[i].toList := by
  rw [gt_eq (by simpa using hi)]; simp

theorem gen_data_spec (h0 : 0 < size) {st : State F.σ} (hI : Inv st.fec) (hr : Room F.n_data F.n_outputs size st) :
    ∃ st', gen_data F size st = .ok st' ∧ Sound Inv size st'.d st' := by
  obtain ⟨d, P, e, h1, h2⟩ := genAll_spec h0 hr.d.2 st.prng
  unfold gen_data
  rw [e, ok_bind]
  simp only
  rw [check_ok (fun b hb => (h2 b hb).2), ok_bind]
  exact ⟨_, rfl, ⟨hI, rfl, ⟨⟨by rw [← hr.d.1, ← h1], fun b hb => (h2 b hb).1.size⟩, hr.c, hr.r, hr.props⟩, h2⟩⟩

theorem encode_spec {d : List (Array Nat)} {frags : Array (List Nat)} {fprops : Array Properties} (hk : 0 < F.n_data)
    (hC : Codes F Inv sys (dataOf d) (dataOf d) frags fprops) {st : State F.σ} (h : Sound Inv size d st) :
    ∃ st', encode F st = .ok st' ∧ Coded' Inv size frags fprops d st' := by
  obtain ⟨s', e, hI⟩ := hC.enc st.fec h.inv (dataOf d) hC.dsize (fun i _ => .inl rfl) st.props h.room.props
  have hdl : d.length = F.n_data := by have := hC.dsize; simpa using this
  have hcl : st.c.length = frags.size := by rw [h.room.c.1, hC.fsize]
  have hlen : ∀ f, f < F.n_outputs → (gt frags f).length = size := by
    intro f hf
    rw [hC.flen f 0 hf hk, dataOf_at (by omega), Array.length_toList, (h.good _ (List.getElem_mem (by omega))).1.size]
  have hst : storeAll st.c (frags.map some) = frags.toList.map List.toArray := by
    refine storeAll_eq (by simp [hcl]) (by simp) (fun i hi => ?_)
    have hi' : i < frags.size := by simpa using hi
    have hl := hlen i (by rw [← hC.fsize]; exact hi')
    rw [gt_eq hi'] at hl
    refine ⟨by rw [gt_map hi', gt_eq hi']; simp, ?_⟩
    rw [h.room.c.2 _ (List.getElem_mem _)]
    simpa using hl
  unfold encode
  rw [h.d, e, ok_bind]
  refine ⟨_, rfl, ⟨⟨hI, rfl, ⟨by simp only; rw [← h.d]; exact h.room.d, ⟨?_, ?_⟩, h.room.r, hC.psize⟩, h.good⟩, ?_, rfl⟩⟩
  · simp [hst, hC.fsize]
  · intro b hb
    simp only [hst] at hb
    obtain ⟨l, hl, rfl⟩ := List.mem_map.1 hb
    obtain ⟨i, hi, rfl⟩ := List.mem_iff_getElem.1 hl
    have hi' : i < frags.size := by simpa using hi
    have := hlen i (by rw [← hC.fsize]; exact hi')
    rw [gt_eq hi'] at this
    simpa using this
  · simp [hst, List.map_map, Function.comp_def]

theorem decode_spec {m : Nat} {d : List (Array Nat)} {frags : Array (List Nat)} {fprops : Array Properties} (hk : 0 < F.n_data)
    (hm : F.n_outputs = if sys then m else F.n_data + m) (h0 : 0 < size) (hC : Codes F Inv sys (dataOf d) (dataOf d) frags fprops) {st : State F.σ}
    (h : Coded' Inv size frags fprops d st) {sh : List (Array Nat)} (hsh : Shuffles sys F.n_data (F.n_data + m) sh) :
    ∃ st', decode F sys size sh st = .ok (true, st') ∧ Coded' Inv size frags fprops d st' ∧ st'.r = d := by
  obtain ⟨md, mc, e, h1, h2, h3, h4, h5⟩ := get_avail_spec hk hsh
  rw [← hm] at e h2
  have hdl : st.d.length = F.n_data := h.room.d.1
  have hcl : st.c.length = F.n_outputs := h.room.c.1
  have hpl : st.props.size = F.n_outputs := by rw [h.props, hC.psize]
  unfold decode
  rw [e, ok_bind]
  simp only
  obtain ⟨v, o, s', ed, hI, hv⟩ := hC.dec st.fec h.inv (streams md st.d) (streams mc st.c) (Array.replicate F.n_data (some []))
    ((List.zipWith (fun a p => if a then p else .empty) mc.toList st.props.toList).toArray)
    (by rw [streams_size _ _ (by omega), hdl]) (by rw [streams_size _ _ (by omega), hcl]) (by simp [h2, hpl]) (by simp)
    (fun i t hi ht => by
      rw [streams_at (by omega) (by omega)] at ht
      split at ht
      · injection ht with ht
        rw [dataOf_at (by rw [← h.d]; omega), ← ht]
        congr 1
        simp only [h.d]
      · cases ht)
    (fun f t hf ht => by
      rw [streams_at (by omega) (by omega)] at ht
      split at ht
      · rename_i hmk
        injection ht with ht
        constructor
        · rw [← ht, gt_eq (by rw [hC.fsize]; exact hf), ← Array.getElem_toList]
          simp only [← h.c]
          simp
        · rw [gt_eq (by simp [h2, hpl]; exact hf), gt_eq (by rw [hC.psize]; exact hf)]
          rw [gt_eq (by omega)] at hmk
          simp [h.props, hmk]
      · cases ht)
    (by
      right
      rw [avail_streams (by omega), avail_streams (by omega)]
      cases sys
      · have := h5 rfl; simp; omega
      · simp; omega)
  obtain ⟨rfl, ho, hall⟩ := hv (by rw [avail_streams (by omega)]; exact h3)
  rw [ed, ok_bind]
  have hst : storeAll st.r o = d := by
    rw [← h.d]
    refine storeAll_eq (by rw [h.room.r.1, hdl]) (by rw [ho, hdl]) (fun i hi => ?_)
    have hi' : i < F.n_data := by omega
    refine ⟨?_, ?_⟩
    · rw [hall i hi', gt_replicate hi', dataOf_at (by rw [← h.d]; omega)]
      simp only [← h.d]
      simp
    · rw [h.room.d.2 _ (List.getElem_mem hi), h.room.r.2 _ (List.getElem_mem _)]
  have hgood := h.good
  obtain ⟨w, ew, hw⟩ := Props.C70_compare h0 (fun b hb => (hgood b hb).1) (fun b hb => (hgood b hb).1)
  rw [hw.2 ⟨rfl, fun _ _ _ _ _ => rfl, fun b hb => (hgood b hb).2, fun b hb => (hgood b hb).2⟩] at ew
  simp only [hst, h.d, ew, ok_bind, check_ok (fun b hb => (hgood b hb).2), Bool.not_true, Bool.false_eq_true, if_false]
  refine ⟨_, rfl, ⟨⟨hI, rfl, ⟨by simp only; rw [← h.d]; exact h.room.d, h.room.c, ?_, h.room.props⟩, hgood⟩, h.c, h.props⟩, rfl⟩
  simp only
  rw [← h.d]
  exact h.room.d

theorem decLoop_spec {m : Nat} {both : Bool} {d : List (Array Nat)} {frags : Array (List Nat)} {fprops : Array Properties} (hk : 0 < F.n_data)
    (hm : F.n_outputs = if sys then m else F.n_data + m) (h0 : 0 < size) (hC : Codes F Inv sys (dataOf d) (dataOf d) frags fprops)
    {shs : List (List (Array Nat))} (hsh : ∀ l ∈ shs, Shuffles sys F.n_data (F.n_data + m) l) {st : State F.σ}
    (h : Sound Inv size d st) (hb : both = false → Coded' Inv size frags fprops d st) :
    ∃ st', decLoop F both sys size shs st = .ok (true, st') ∧ Sound Inv size d st' ∧ (shs ≠ [] ∨ st.r = d → st'.r = d) := by
  induction shs generalizing st with
  | nil => exact ⟨st, rfl, h, fun q => q.resolve_left (by simp)⟩
  | cons sh shs ih =>
    have key : ∀ st1, Coded' Inv size frags fprops d st1 → ∃ st', ((decode F sys size sh st1 >>= fun (v, st) =>
        if v then decLoop F both sys size shs st else pure (false, st)) : Res (Bool × State F.σ)) = .ok (true, st') ∧ Sound Inv size d st' ∧ st'.r = d := by
      intro st1 h1
      obtain ⟨st2, e2, h2, h2'⟩ := decode_spec hk hm h0 hC h1 (hsh sh (by simp))
      obtain ⟨st3, e3, h3, h3'⟩ := ih (fun l hl => hsh l (by simp [hl])) h2.toSound (fun _ => h2)
      rw [e2, ok_bind]
      exact ⟨st3, e3, h3, h3' (.inr h2')⟩
    unfold decLoop
    cases both
    · obtain ⟨st', e, h1, h2⟩ := key st (hb rfl)
      exact ⟨st', e, h1, fun _ => h2⟩
    · obtain ⟨st1, e1, h1⟩ := encode_spec hk hC h
      obtain ⟨st', e, h1, h2⟩ := key st1 h1
      refine ⟨st', ?_, h1, fun _ => h2⟩
      rw [if_pos rfl, e1, ok_bind]
      exact e

theorem encLoop_spec {d : List (Array Nat)} {frags : Array (List Nat)} {fprops : Array Properties} (hk : 0 < F.n_data)
    (hC : Codes F Inv sys (dataOf d) (dataOf d) frags fprops) (n : Nat) {st : State F.σ} (h : Sound Inv size d st) :
    ∃ st', encLoop F n st = .ok (true, st') ∧ Sound Inv size d st' := by
  induction n generalizing st with
  | zero => exact ⟨st, rfl, h⟩
  | succ n ih =>
    obtain ⟨st1, e1, h1⟩ := encode_spec hk hC h
    obtain ⟨st2, e2, h2⟩ := ih h1.toSound
    unfold encLoop
    rw [e1, ok_bind]
    exact ⟨st2, e2, h2⟩

/-- the benchmark passes with any code that works for all data of whole words -/
theorem passes {m : Nat} (hk : 0 < F.n_data) (hm : F.n_outputs = if sys then m else F.n_data + m) (h0 : 0 < size)
    (hC : ∀ d : List (Array Nat), d.length = F.n_data → (∀ b ∈ d, Chunk size b) → ∃ frags fprops, Codes F Inv sys (dataOf d) (dataOf d) frags fprops)
    {s : F.σ} (hs : Inv s) : Passes F sys m size s where
  encOnly := by
    rintro st rfl hr samples
    obtain ⟨st1, e1, h1⟩ := gen_data_spec h0 hs hr
    obtain ⟨fr, pr, hc⟩ := hC st1.d h1.room.d.1 (fun b hb => (h1.good b hb).1)
    obtain ⟨st2, e2, h2⟩ := encLoop_spec hk hc samples h1
    unfold enc_only
    rw [e1, ok_bind]
    exact ⟨st2, e2, by rw [h2.d]; exact check_ok (fun b hb => (h2.good b hb).2)⟩
  decOnly := by
    rintro st rfl hr shs hne hsh
    obtain ⟨st1, e1, h1⟩ := gen_data_spec h0 hs hr
    obtain ⟨fr, pr, hc⟩ := hC st1.d h1.room.d.1 (fun b hb => (h1.good b hb).1)
    obtain ⟨st2, e2, h2⟩ := encode_spec hk hc h1
    obtain ⟨st3, e3, h3, h3'⟩ := decLoop_spec (both := false) hk hm h0 hc hsh h2.toSound (fun _ => h2)
    unfold dec_only
    rw [e1, ok_bind, e2, ok_bind]
    exact ⟨st3, e3, by rw [h3.d]; exact check_ok (fun b hb => (h3.good b hb).2), by rw [h3' (.inl hne), h3.d]⟩
  encDec := by
    rintro st rfl hr shs hne hsh
    obtain ⟨st1, e1, h1⟩ := gen_data_spec h0 hs hr
    obtain ⟨fr, pr, hc⟩ := hC st1.d h1.room.d.1 (fun b hb => (h1.good b hb).1)
    obtain ⟨st3, e3, h3, h3'⟩ := decLoop_spec (both := true) hk hm h0 hc hsh h1 (fun q => by cases q)
    unfold enc_dec
    rw [e1, ok_bind]
    exact ⟨st3, e3, by rw [h3.d]; exact check_ok (fun b hb => (h3.good b hb).2), by rw [h3' (.inl hne), h3.d]⟩

end Quad.Bench
