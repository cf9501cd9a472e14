import Verif.Lemmas.FecVert

/-!
Vertical blocks: encoding and decoding of the caller's memory blocks.
-/

namespace Quad

theorem copyBytes_spec {dst src : Array Nat} {off len : Nat} (h1 : off + len ≤ src.size) (h2 : len ≤ dst.size) :
    copyBytes dst src off len = .ok ((src.toList.drop off).take len ++ dst.toList.drop len).toArray := by
  unfold copyBytes
  rw [if_pos ⟨h1, h2⟩]
  congr 1
  apply Array.ext'
  rw [Array.toList_append, Array.toList_extract, Array.toList_extract, List.extract_eq_take_drop, List.extract_eq_take_drop,
    Nat.add_sub_cancel_left]
  show _ = (src.toList.drop off).take len ++ dst.toList.drop len
  congr 1
  exact List.take_of_length_le (by simp)

/-- the words that `copy_size` and the zeroing of the rest leave in a packet -/
theorem copyPad {w pkt off T : Nat} {src dst : Array Nat} (hT : T * w ≤ src.size) (ho : off < T) (hd : dst.size = pkt * w) :
    (if min pkt (T - off) < pkt then zeroTail ((src.toList.drop (off * w)).take (min pkt (T - off) * w) ++
        dst.toList.drop (min pkt (T - off) * w)).toArray (min pkt (T - off) * w)
      else ((src.toList.drop (off * w)).take (min pkt (T - off) * w) ++ dst.toList.drop (min pkt (T - off) * w)).toArray)
      = padPkt (pkt * w) ((src.toList.take (T * w)).drop (off * w)) := by
  have hl : ((src.toList.take (T * w)).drop (off * w)).length = (T - off) * w := by
    rw [List.length_drop, List.length_take, min_eq_left (by simpa using hT), Nat.sub_mul]
  have hTo : off * w + (T - off) * w = T * w := by rw [← Nat.add_mul, show off + (T - off) = T by omega]
  have htk : ∀ n, n ≤ T - off → (src.toList.drop (off * w)).take (n * w) = ((src.toList.take (T * w)).drop (off * w)).take (n * w) := by
    intro n hn
    have : n * w ≤ (T - off) * w := Nat.mul_le_mul_right _ hn
    rw [List.drop_take, List.take_take, min_eq_left (by rw [← hTo]; omega)]
  rw [htk _ (min_le_right _ _)]
  apply Array.ext'
  unfold padPkt zeroTail
  rw [hl]
  by_cases hlt : T - off < pkt
  · have hm : min pkt (T - off) = T - off := min_eq_right (by omega)
    have hlw : (T - off) * w ≤ pkt * w := Nat.mul_le_mul_right _ hlt.le
    rw [hm, if_pos hlt, List.take_of_length_le (l := (src.toList.take (T * w)).drop (off * w)) (by omega),
      List.take_of_length_le (l := (src.toList.take (T * w)).drop (off * w)) (i := pkt * w) (by omega)]
    rw [Array.toList_append, Array.toList_extract, List.extract_eq_take_drop, List.drop_zero, Nat.sub_zero, Array.toList_replicate]
    show List.take _ (_ ++ _) ++ _ = _ ++ _
    rw [List.take_left' hl]
    congr 2
    rw [List.size_toArray, List.length_append, hl, List.length_drop, Array.length_toList, hd]
    omega
  · have hm : min pkt (T - off) = pkt := min_eq_left (by omega)
    have hlw : pkt * w ≤ (T - off) * w := Nat.mul_le_mul_right _ (by omega)
    rw [hm, if_neg (by omega)]
    show List.take _ _ ++ _ = List.take _ _ ++ _
    congr 1
    rw [List.drop_of_length_le (by simp [hd]), show pkt * w - (T - off) * w = 0 by omega]
    rfl

/-- one packet of each of `count` blocks -/
theorem readBlocks_spec {count dst off len : Nat} {idx : Nat → Res Nat} {ix : Nat → Nat} {blocks : Array (Option (Array Nat))}
    {wc : Array (Array Nat)} {R : Nat → Array Nat} (hidx : ∀ i, i < count → idx i = .ok (ix i))
    (hlt : ∀ i, i < count → ix i < blocks.size) (hs : ∀ i, i < count → gt blocks (ix i) = some (R i))
    (hr : ∀ i, i < count → off + len ≤ (R i).size) (hwc : dst + count ≤ wc.size)
    (hwl : ∀ i, i < count → len ≤ (gt wc (dst + i)).size) :
    ∃ wc', readBlocks count dst idx blocks off len wc = .ok wc' ∧ wc'.size = wc.size ∧
      (∀ i, i < count → gt wc' (dst + i)
        = (((R i).toList.drop off).take len ++ (gt wc (dst + i)).toList.drop len).toArray) ∧
      (∀ j, j < dst ∨ dst + count ≤ j → gt wc' j = gt wc j) := by
  obtain ⟨r, e, i1, i2, i3⟩ := forN_inv (n := count) (s := wc) (f := fun i wc => do
      let j ← idx i
      let s ← rd blocks j
      match s with
      | none => ub
      | some s => do
        let d ← rd wc (dst + i)
        let d ← copyBytes d s off len
        wr wc (dst + i) d)
    (I := fun t (r : Array (Array Nat)) => r.size = wc.size ∧ (∀ i, i < t → gt r (dst + i)
        = (((R i).toList.drop off).take len ++ (gt wc (dst + i)).toList.drop len).toArray) ∧
      (∀ j, j < dst ∨ dst + t ≤ j → gt r j = gt wc j)) ⟨rfl, by simp, fun _ _ => rfl⟩ (by
      rintro t r ht ⟨i1, i2, i3⟩
      have h3 := i3 (dst + t) (.inr le_rfl)
      simp only [hidx t ht, ok_bind]
      rw [rd_gt (a := blocks) (hlt t ht), ok_bind, hs t ht]
      simp only
      rw [rd_gt (a := r) (by omega), ok_bind, h3, copyBytes_spec (hr t ht) (hwl t ht), ok_bind, wr_ok (by omega)]
      refine ⟨_, rfl, by simp [i1], fun i hi => ?_, fun j hj => ?_⟩
      · rw [gt_set (by omega)]
        by_cases h : i = t
        · subst h; rw [if_pos rfl]
        · rw [if_neg (by omega)]; exact i2 i (by omega)
      · rw [gt_set (by omega), if_neg (by omega)]; exact i3 j (by omega))
  exact ⟨r, e, i1, i2, i3⟩

theorem storeBytes_spec {w off c pkt : Nat} {F : Nat → Nat} {L : List Nat} (hL : (off + c) * w ≤ L.length) (hc : c ≤ pkt) :
    storeBytes (flat w F off ++ L.drop (off * w)).toArray (flat w (fun t => F (off + t)) pkt).toArray (off * w) (c * w)
      = .ok (flat w F (off + c) ++ L.drop ((off + c) * w)).toArray := by
  have hl : (flat w F off ++ L.drop (off * w)).length = L.length := by
    rw [List.length_append, flat_length, List.length_drop]
    rw [Nat.add_mul] at hL; omega
  unfold storeBytes
  rw [if_pos ⟨by rw [List.size_toArray, hl, ← Nat.add_mul]; exact hL,
    by rw [List.size_toArray, flat_length]; exact Nat.mul_le_mul_right _ hc⟩]
  congr 1
  apply Array.ext'
  rw [Array.toList_append, Array.toList_append, Array.toList_extract, Array.toList_extract, Array.toList_extract,
    List.extract_eq_take_drop, List.extract_eq_take_drop, List.extract_eq_take_drop, List.drop_zero, List.drop_zero,
    Nat.sub_zero, Nat.sub_zero, List.size_toArray, hl]
  show List.take _ (_ ++ _) ++ List.take _ (flat _ _ _) ++ List.take _ (List.drop _ (_ ++ _)) = _ ++ _
  rw [List.take_left' (flat_length _ _ _), flat_take hc, flat_add]
  congr 1
  rw [List.drop_append, List.drop_of_length_le (by rw [flat_length]; omega), List.nil_append, flat_length, List.drop_drop,
    Nat.add_sub_cancel_left, ← Nat.add_mul, List.take_of_length_le (by simp)]

/-- the blocks after the first `off` words of the wanted ones were written -/
def Written (w : Nat) (wanted : Array Bool) (F : Nat → Nat → Nat) (blocks0 : Array (Option (Array Nat))) (off i : Nat) : Option (Array Nat) :=
  if gt wanted i then (gt blocks0 i).map (fun d => (flat w (F i) off ++ d.toList.drop (off * w)).toArray) else gt blocks0 i

theorem writeBlocks_spec {w n off c pkt : Nat} {wanted : Array Bool} {oc : Array (Array Nat)} {F : Nat → Nat → Nat}
    {blocks0 blocks : Array (Option (Array Nat))} (hw : n ≤ wanted.size) (hb : n ≤ blocks.size) (hoc : n ≤ oc.size)
    (hwant : ∀ i, i < n → gt wanted i = true → ∃ d, gt blocks0 i = some d ∧ (off + c) * w ≤ d.size)
    (hblk : ∀ i, i < n → gt blocks i = Written w wanted F blocks0 off i) (hc : c ≤ pkt)
    (hout : ∀ i, i < n → gt oc i = (flat w (fun t => F i (off + t)) pkt).toArray) :
    ∃ r, writeBlocks n wanted (off * w) (c * w) oc blocks = .ok r ∧ r.size = blocks.size ∧
      ∀ i, i < n → gt r i = Written w wanted F blocks0 (off + c) i := by
  obtain ⟨r, e, i1, i2, i3⟩ := forN_inv (n := n) (s := blocks) (f := fun i blocks => do
      let wnt ← rd wanted i
      if wnt then do
        let d ← rd blocks i
        match d with
        | none => ub
        | some d => do
          let s ← rd oc i
          let d ← storeBytes d s (off * w) (c * w)
          wr blocks i (some d)
      else pure blocks)
    (I := fun t (r : Array (Option (Array Nat))) => r.size = blocks.size ∧
      (∀ i, i < t → gt r i = Written w wanted F blocks0 (off + c) i) ∧ ∀ i, t ≤ i → gt r i = gt blocks i)
    ⟨rfl, by simp, fun _ _ => rfl⟩ (by
      rintro t r ht ⟨i1, i2, i3⟩
      rw [rd_gt (a := wanted) (by omega), ok_bind]
      cases hwt : gt wanted t with
      | false =>
        refine ⟨r, by simp; rfl, i1, fun i hi => ?_, fun i hi => i3 i (by omega)⟩
        by_cases h : i = t
        · subst h
          rw [i3 i le_rfl, hblk i ht]
          unfold Written
          rw [hwt]; simp
        · exact i2 i (by omega)
      | true =>
        obtain ⟨d, hd, hds⟩ := hwant t ht hwt
        have hbt : gt r t = some (flat w (F t) off ++ d.toList.drop (off * w)).toArray := by
          rw [i3 t le_rfl, hblk t ht]
          unfold Written
          rw [hwt, if_pos rfl, hd]; rfl
        simp only [if_true]
        rw [rd_gt (a := r) (by omega), ok_bind, hbt]
        simp only
        rw [rd_gt (a := oc) (by omega), ok_bind, hout t ht, storeBytes_spec (by simpa using hds) hc, ok_bind, wr_ok (by omega)]
        refine ⟨_, rfl, by simp [i1], fun i hi => ?_, fun i hi => ?_⟩
        · rw [gt_set (by omega)]
          by_cases h : i = t
          · subst h
            rw [if_pos rfl]
            unfold Written
            rw [hwt, if_pos rfl, hd]; rfl
          · rw [if_neg h]; exact i2 i (by omega)
        · rw [gt_set (by omega), if_neg (by omega)]; exact i3 i (by omega))
  exact ⟨r, e, i1, i2⟩

theorem written_zero {w : Nat} {wanted : Array Bool} {F : Nat → Nat → Nat} {blocks0 : Array (Option (Array Nat))} (i : Nat) :
    Written w wanted F blocks0 0 i = gt blocks0 i := by
  unfold Written
  split
  · cases gt blocks0 i <;> simp [flat_zero]
  · rfl

namespace FecV
variable {E : FecV} {st : Array Nat → Nat → Nat} {mk : Array Nat → Nat → Option Nat} {b0 : Nat} {Live : CtxB → Heap → Prop}

theorem encBlockLoop_spec (hE : E.VSpec st mk b0 Live) (hpkt : 0 < E.base.pkt_size) {B : Nat → Array Nat} {T : Nat}
    {wm om : Array Nat} {datas pars0 : Array (Option (Array Nat))} {wanted : Array Bool}
    (hds : datas.size = E.base.n_data) (hdat : ∀ i, i < E.base.n_data → gt datas i = some (B i))
    (hD : ∀ i, i < E.base.n_data → ∀ x ∈ (B i).toList, x < 256)
    (hT : ∀ i, i < E.base.n_data → T * E.base.word_size ≤ (B i).size) (hwz : E.base.n_outputs ≤ wanted.size)
    (hwant : ∀ i, i < E.base.n_outputs → gt wanted i = true → ∃ d, gt pars0 i = some d ∧ T * E.base.word_size ≤ d.size)
    {d : Nat} : ∀ {off fuel : Nat} {pars : Array (Option (Array Nat))} {s : EncSt}, T ≤ off + d → d < fuel →
      pars.size = E.base.n_outputs →
      (∀ f, f < E.base.n_outputs → gt pars f = Written E.base.word_size wanted
        (fun f t => st (rowAt E.base.word_size E.base.n_data (fun i => (B i).toList.take (T * E.base.word_size)) t) f) pars0 (min off T) f) →
      Live s.enc s.H → Io E b0 wm om E.get_n_outputs s.H → s.words_char.size = E.base.n_data →
      (∀ i, i < E.base.n_data → (gt s.words_char i).size = E.buf_size) →
      E.get_n_outputs ≤ s.out_char.size → (∀ i, i < E.get_n_outputs → (gt s.out_char i).size = E.buf_size) →
      s.props.size = E.base.n_outputs →
      (∀ f, f < E.base.n_outputs → gt s.props f = ⟨marksOf (fun t => mk (rowAt E.base.word_size E.base.n_data
        (fun i => (B i).toList.take (T * E.base.word_size)) t) f) (min off T)⟩) →
      ∃ pars' s', E.encBlockLoop ⟨wm, E.base.n_data, E.base.pkt_size⟩ ⟨om, E.get_n_outputs, E.base.pkt_size⟩ datas wanted T fuel
          pars off s = .ok (pars', s') ∧ pars'.size = E.base.n_outputs ∧ Live s'.enc s'.H ∧
        s'.props.size = E.base.n_outputs ∧ ∀ f, f < E.base.n_outputs →
        gt pars' f = Written E.base.word_size wanted (fun f t => st (rowAt E.base.word_size E.base.n_data
          (fun i => (B i).toList.take (T * E.base.word_size)) t) f) pars0 T f ∧
        gt s'.props f = ⟨marksOf (fun t => mk (rowAt E.base.word_size E.base.n_data
          (fun i => (B i).toList.take (T * E.base.word_size)) t) f) T⟩ := by
  have hwp := hE.w.pos
  have hk := hE.kpos
  set w := E.base.word_size with hwd
  set k := E.base.n_data with hkd
  set pkt := E.base.pkt_size with hpd
  set D : Nat → List Nat := fun i => (B i).toList.take (T * w) with hDd
  have hbs : E.buf_size = pkt * w := rfl
  have hDl : ∀ i, i < k → (D i).length = T * w := fun i hi => by
    simp only [hDd]; rw [List.length_take, min_eq_left (by simpa using hT i hi)]
  have hDb : ∀ i, i < k → ∀ x ∈ D i, x < 256 := fun i hi x hx => hD i hi x (List.mem_of_mem_take hx)
  induction d with
  | zero =>
    intro off fuel pars s hd hfuel h1 h2 hL hio hw1 hw2 hc1 hc2 hp1 hp2
    obtain ⟨fuel, rfl⟩ : ∃ f, fuel = f + 1 := ⟨fuel - 1, by omega⟩
    rw [min_eq_right (by omega)] at h2 hp2
    refine ⟨pars, s, ?_, h1, hL, hp1, fun f hf => ⟨h2 f hf, hp2 f hf⟩⟩
    unfold encBlockLoop
    rw [if_neg (by omega)]
    rfl
  | succ d ih =>
    intro off fuel pars s hd hfuel h1 h2 hL hio hw1 hw2 hc1 hc2 hp1 hp2
    obtain ⟨fuel, rfl⟩ : ∃ f, fuel = f + 1 := ⟨fuel - 1, by omega⟩
    by_cases hlt : off < T
    · rw [min_eq_left (by omega)] at h2 hp2
      have hcs : min pkt (T - off) * w ≤ (T - off) * w := Nat.mul_le_mul_right _ (min_le_right _ _)
      have hcp : min pkt (T - off) * w ≤ pkt * w := Nat.mul_le_mul_right _ (min_le_left _ _)
      have hTo : off * w + (T - off) * w = T * w := by rw [← Nat.add_mul, show off + (T - off) = T by omega]
      obtain ⟨wc1, e1, z1, r1, _⟩ := readBlocks_spec (count := k) (dst := 0) (off := off * w) (len := min pkt (T - off) * w)
        (idx := fun i => .ok i) (ix := id) (blocks := datas) (wc := s.words_char) (R := B) (fun i _ => rfl)
        (fun i hi => by simp only [id]; omega) hdat (fun i hi => by have := hT i hi; omega) (by omega)
        (fun i hi => by rw [Nat.zero_add, hw2 i hi]; omega)
      simp only [Nat.zero_add] at r1
      obtain ⟨wc, hwcd⟩ : ∃ wc, wc = if min pkt (T - off) < pkt then wc1.map (fun c => zeroTail c (min pkt (T - off) * w)) else wc1 :=
        ⟨_, rfl⟩
      have hwcs : wc.size = k := by rw [hwcd]; split <;> (try rw [Array.size_map]) <;> omega
      have hwc : ∀ i, i < k → gt wc i = padPkt (pkt * w) ((D i).drop (off * w)) := by
        intro i hi
        rw [← copyPad (dst := gt s.words_char i) (hT i hi) hlt (hw2 i hi), hwcd]
        by_cases hm : min pkt (T - off) < pkt
        · rw [if_pos hm, if_pos hm, gt_map (by omega), r1 i hi]
        · rw [if_neg hm, if_neg hm, r1 i hi]
      obtain ⟨s', e', q1, _, q2, q3, q4, q5, q6, q7⟩ := encStep_spec hE (wm := wm) (om := om) (off := off)
        (s := { s with words_char := wc }) hL hio hwcs.ge
        (fun i hi => by show (gt wc i).size = _; rw [hwc i hi, padPkt_size, hbs])
        (fun i hi => by
          show ∀ x ∈ (gt wc i).toList, x < 256
          rw [hwc i hi]; exact padPkt_bytes (fun x hx => hDb i hi x (List.mem_of_mem_drop hx)))
        hc1 hc2 hp1
      have hF : ∀ f, f < E.base.n_outputs →
          gt s'.out_char f = (flat w (fun c => st (rowAt w k D (off + c)) f) pkt).toArray ∧
          gt s'.props f = ⟨marksOf (fun t => mk (rowAt w k D t) f) (off + pkt)⟩ := by
        intro f hf
        refine ⟨?_, ?_⟩
        · rw [(q7 f hf).1]
          congr 1
          exact flat_congr (fun c hc => by rw [pktRow_padPkt hwc hc])
        · rw [(q7 f hf).2]
          show Properties.mk ((gt s.props f).props ++ _) = _
          rw [hp2 f hf, marksOf_add]
          congr 3
          exact marksOf_congr (fun c hc => by rw [pktRow_padPkt hwc hc])
      obtain ⟨pars', eo, o1, o2⟩ := writeBlocks_spec (w := w) (n := E.base.n_outputs) (off := off) (c := min pkt (T - off)) (pkt := pkt)
        (wanted := wanted) (oc := s'.out_char) (F := fun f t => st (rowAt w k D t) f) (blocks0 := pars0) (blocks := pars) hwz h1.ge
        (le_trans hE.outs q4) (fun i hi hw => by
          obtain ⟨x, h3, h4⟩ := hwant i hi hw
          exact ⟨x, h3, by rw [Nat.add_mul]; omega⟩) h2 (min_le_left _ _) (fun f hf => (hF f hf).1)
      have hmin : min (off + pkt) T = off + min pkt (T - off) := by omega
      obtain ⟨res, sf, ef, hres⟩ := ih (off := off + pkt) (fuel := fuel) (pars := pars') (s := s') (by omega) (by omega)
        (by omega) (fun f hf => by rw [o2 f hf, hmin]) q2 q3 (by rw [q1]; exact hwcs)
        (fun i hi => by rw [q1]; show (gt wc i).size = _; rw [hwc i hi, padPkt_size, hbs]) q4 q5 q6
        (fun f hf => by
          rw [(hF f hf).2]
          rcases Nat.lt_or_ge T (off + pkt) with h | h
          · rw [min_eq_right h.le, marks_pkt hE (fun i hi => (hDl i hi).le) hf h.le]
          · rw [min_eq_left h])
      have hsd : statDiv (min pkt (T - off) * w) = .ok () := by
        unfold statDiv
        rw [if_neg (Nat.mul_ne_zero (by omega) (by omega))]
      refine ⟨res, sf, ?_, hres⟩
      unfold encBlockLoop
      rw [if_pos hlt]
      simp only
      rw [e1, ok_bind, ← hwcd, e', ok_bind, hsd, ok_bind, eo, ok_bind]
      exact ef
    · rw [min_eq_right (by omega)] at h2 hp2
      refine ⟨pars, s, ?_, h1, hL, hp1, fun f hf => ⟨h2 f hf, hp2 f hf⟩⟩
      unfold encBlockLoop
      rw [if_neg hlt]
      rfl

/-- encoding the caller's blocks: `T` words of each data block -/
theorem encode_blocks_vertical_spec (hE : E.VSpec st mk b0 Live) (hpkt : 0 < E.base.pkt_size) {enc : CtxB} {H : Heap}
    (hL : Live enc H) {B : Nat → Array Nat} {T bytes : Nat} {datas pars : Array (Option (Array Nat))} {props : Array Properties}
    {wanted : Array Bool} (junk : Nat → Nat → Nat) (hTb : bytes / E.base.word_size = T)
    (hds : datas.size = E.base.n_data) (hdat : ∀ i, i < E.base.n_data → gt datas i = some (B i))
    (hps : pars.size = E.base.n_outputs) (h3 : props.size = E.base.n_outputs)
    (hD : ∀ i, i < E.base.n_data → ∀ x ∈ (B i).toList, x < 256)
    (hT : ∀ i, i < E.base.n_data → T * E.base.word_size ≤ (B i).size) (hwz : E.base.n_outputs ≤ wanted.size)
    (hwant : ∀ i, i < E.base.n_outputs → gt wanted i = true → ∃ d, gt pars i = some d ∧ T * E.base.word_size ≤ d.size) :
    ∃ pars' props' enc' H', E.encode_blocks_vertical enc datas pars props wanted bytes junk H = .ok (pars', props', enc', H') ∧
      Live enc' H' ∧ pars'.size = E.base.n_outputs ∧ props'.size = E.base.n_outputs ∧ ∀ f, f < E.base.n_outputs →
      gt pars' f = Written E.base.word_size wanted (fun f t => st (rowAt E.base.word_size E.base.n_data
          (fun i => (B i).toList.take (T * E.base.word_size)) t) f) pars T f ∧
      gt props' f = ⟨marksOf (fun t => mk (rowAt E.base.word_size E.base.n_data
          (fun i => (B i).toList.take (T * E.base.word_size)) t) f) T⟩ := by
  obtain ⟨H1, H2, wm, om, e1, e2, hio, hL2⟩ := alloc_spec hE hL junk E.get_n_outputs
  obtain ⟨wz, wg⟩ := freshChars_spec junk E.base.n_data E.buf_size
  obtain ⟨oz, og⟩ := freshChars_spec junk E.get_n_outputs E.buf_size
  obtain ⟨o, s, e, q1, q2, q3, q4⟩ := encBlockLoop_spec hE hpkt (B := B) (T := T) (wm := wm) (om := om) (datas := datas)
    (pars0 := pars) (wanted := wanted) hds hdat hD hT hwz hwant (d := T)
    (off := 0) (fuel := T + 1) (pars := pars)
    (s := ⟨enc, H2, freshChars junk E.base.n_data E.buf_size, freshChars junk E.get_n_outputs E.buf_size, props.map Properties.clear⟩)
    (by omega) (by omega) hps (fun f hf => by rw [Nat.zero_min, written_zero])
    hL2 hio wz wg oz.ge og (by simp [h3])
    (fun f hf => by show gt (props.map Properties.clear) f = _; rw [gt_map (by omega), Nat.zero_min]; rfl)
  refine ⟨o, s.props, s.enc, s.H, ?_, q2, q1, q3, q4⟩
  unfold encode_blocks_vertical
  simp only [cassert, hds, hps, h3, decide_true, if_true, ok_bind, e1, e2, hTb]
  rw [e, ok_bind]
  rfl

/-- the loop that decodes blocks: `S i` is the block of the `i`-th chosen fragment -/
theorem decBlockLoop_spec (hE : E.VSpec st mk b0 Live) (hpkt : 0 < E.base.pkt_size) {k nd w T : Nat} {rows : Nat → Array Nat}
    {ids apar wm om : Array Nat} {props : Array Properties} {datas0 pars : Array (Option (Array Nat))} {wanted : Array Bool}
    {Good : CtxB → Heap → Nat → Prop} {S : Nat → Array Nat} {sys : Bool}
    (hsys : E.base.sys = sys) (hk : E.base.n_data = k) (hEw : E.base.word_size = w)
    (hnd : nd < k) (hnd0 : sys = false → nd = 0) (hidsz : nd ≤ ids.size) (haparz : k - nd ≤ apar.size)
    (hids : ∀ i, i < nd → gt ids i < k ∧ gt datas0 (gt ids i) = some (S i))
    (hpar : ∀ i, i < k - nd → gt apar i < pars.size ∧ gt pars (gt apar i) = some (S (nd + i)))
    (hS : ∀ i, i < k → T * w ≤ (S i).size) (hwz : k ≤ wanted.size)
    (hwant : ∀ i, i < k → gt wanted i = true → ∃ d, gt datas0 i = some d ∧ T * w ≤ d.size)
    (hgl : ∀ {C H t}, Good C H t → Okb E.base.pkt_size H wm ∧ Okb E.base.pkt_size H om)
    (hgf : ∀ {C H H1 t}, Good C H t → Frame wm H H1 → Okb E.base.pkt_size H1 wm → Good C H1 t)
    (hdec : ∀ {off C H}, off ≤ T → Good C H off →
        (∀ i c, i < E.base.n_data → c < E.base.pkt_size → el H (gt wm i) c = wordAt w ((S i).toList.take (T * w)) (off + c)) →
        ∃ C' H', E.decode C ⟨om, E.base.n_data, E.base.pkt_size⟩ props off ⟨wm, E.base.n_data, E.base.pkt_size⟩ H
            = .ok (C', H') ∧ Good C' H' (off + E.base.pkt_size) ∧
          ∀ i c, i < E.base.n_data → c < E.base.pkt_size →
            el H' (gt om i) c % 256 ^ E.base.word_size = gt (rows (off + c)) i % 256 ^ E.base.word_size)
    (hws : wm.size = E.base.n_data) (hos : om.size = E.base.n_data) (hinj : InjPtr (wm ++ om)) {d : Nat} :
    ∀ {off fuel : Nat} {datas : Array (Option (Array Nat))} {s : DecSt},
      T ≤ off + d → d < fuel → datas.size = k →
      (∀ i, i < k → gt datas i = Written w wanted (fun i t => gt (rows t) i) datas0 (min off T) i) →
      Good s.C s.H off → k = s.words_char.size → (∀ i, i < k → (gt s.words_char i).size = E.buf_size) →
      k ≤ s.out_char.size → (∀ i, i < k → (gt s.out_char i).size = E.buf_size) →
      ∃ datas' H' C' t', E.decBlockLoop ⟨wm, E.base.n_data, E.base.pkt_size⟩ ⟨om, E.base.n_data, E.base.pkt_size⟩ ids apar nd
          pars props wanted T fuel datas off s = .ok (datas', H') ∧ Good C' H' t' ∧ datas'.size = k ∧
        ∀ i, i < k → gt datas' i = Written w wanted (fun i t => gt (rows t) i) datas0 T i := by
  have hwp : 0 < w := by rw [← hEw]; exact hE.w.pos
  set pkt := E.base.pkt_size with hpd
  have hbs : E.buf_size = pkt * w := by rw [← hEw]; rfl
  induction d with
  | zero =>
    intro off fuel datas s hd hfuel h1 h2 hG hw1 hw2 hc1 hc2
    obtain ⟨fuel, rfl⟩ : ∃ f, fuel = f + 1 := ⟨fuel - 1, by omega⟩
    rw [min_eq_right (by omega)] at h2
    refine ⟨datas, s.H, s.C, off, ?_, hG, h1, h2⟩
    unfold decBlockLoop
    rw [if_neg (by omega)]
    rfl
  | succ d ih =>
    intro off fuel datas s hd hfuel h1 h2 hG hw1 hw2 hc1 hc2
    obtain ⟨fuel, rfl⟩ : ∃ f, fuel = f + 1 := ⟨fuel - 1, by omega⟩
    by_cases hlt : off < T
    · rw [min_eq_left (by omega)] at h2
      have hcs : min pkt (T - off) * w ≤ (T - off) * w := Nat.mul_le_mul_right _ (min_le_right _ _)
      have hcp : min pkt (T - off) * w ≤ pkt * w := Nat.mul_le_mul_right _ (min_le_left _ _)
      have hTo : off * w + (T - off) * w = T * w := by rw [← Nat.add_mul, show off + (T - off) = T by omega]
      -- the data blocks read are not changed past `off`
      have hsrc : ∀ i, i < nd → ∃ x, gt datas (gt ids i) = some x ∧ x.size = (S i).size ∧
          x.toList.drop (off * w) = (S i).toList.drop (off * w) := by
        intro i hi
        obtain ⟨q1, q2⟩ := hids i hi
        rw [h2 _ q1]
        unfold Written
        rw [q2]
        split
        · refine ⟨_, rfl, ?_, ?_⟩
          · rw [List.size_toArray, List.length_append, flat_length, List.length_drop, Array.length_toList]
            have := hS i (by omega); omega
          · show (_ ++ _ : List Nat).drop (off * w) = _
            rw [List.drop_left' (flat_length _ _ _)]
        · exact ⟨_, rfl, rfl, rfl⟩
      obtain ⟨wc0, e0, z0, r0, r0'⟩ : ∃ wc0, (if E.base.sys then
            readBlocks nd 0 (fun i => rd ids i) datas (off * w) (min pkt (T - off) * w) s.words_char
          else pure s.words_char) = .ok wc0 ∧ wc0.size = s.words_char.size ∧
          (∀ i, i < nd → gt wc0 i = (((S i).toList.drop (off * w)).take (min pkt (T - off) * w) ++
            (gt s.words_char i).toList.drop (min pkt (T - off) * w)).toArray) ∧
          (∀ j, nd ≤ j → gt wc0 j = gt s.words_char j) := by
        by_cases hs : E.base.sys = true
        · rw [if_pos hs]
          obtain ⟨wc0, e, z, r, r'⟩ := readBlocks_spec (count := nd) (dst := 0) (off := off * w) (len := min pkt (T - off) * w)
            (idx := fun i => rd ids i) (ix := fun i => gt ids i) (blocks := datas) (wc := s.words_char)
            (R := fun i => (gt datas (gt ids i)).getD #[]) (fun i hi => rd_gt (by omega))
            (fun i hi => by have := (hids i hi).1; omega) (fun i hi => by
              obtain ⟨x, h3, _⟩ := hsrc i hi
              rw [h3]; rfl) (fun i hi => by
              obtain ⟨x, h3, h4, _⟩ := hsrc i hi
              rw [h3]; show _ ≤ x.size
              have := hS i (by omega); omega) (by omega) (fun i hi => by rw [Nat.zero_add, hw2 i (by omega)]; omega)
          refine ⟨wc0, e, z, fun i hi => ?_, fun j hj => r' j (.inr (by omega))⟩
          have := r i hi
          rw [Nat.zero_add] at this
          rw [this]
          obtain ⟨x, h3, _, h5⟩ := hsrc i hi
          rw [h3]
          show ((x.toList.drop (off * w)).take _ ++ _).toArray = _
          rw [h5]
        · rw [if_neg hs]
          have : nd = 0 := hnd0 (by rw [← hsys]; simpa using hs)
          subst this
          exact ⟨_, rfl, rfl, by simp, fun _ _ => rfl⟩
      obtain ⟨wc1, e1, z1, r1, r1'⟩ := readBlocks_spec (count := k - nd) (dst := nd) (off := off * w) (len := min pkt (T - off) * w)
        (idx := fun i => rd apar i) (ix := fun i => gt apar i) (blocks := pars) (wc := wc0) (R := fun i => S (nd + i))
        (fun i hi => rd_gt (by omega)) (fun i hi => (hpar i hi).1) (fun i hi => (hpar i hi).2)
        (fun i hi => by have := hS (nd + i) (by omega); omega) (by omega)
        (fun i hi => by rw [r0' _ (by omega), hw2 _ (by omega)]; omega)
      obtain ⟨wc, hwcd⟩ : ∃ wc, wc = if min pkt (T - off) < pkt then wc1.map (fun c => zeroTail c (min pkt (T - off) * w)) else wc1 :=
        ⟨_, rfl⟩
      have hwcs : wc.size = k := by rw [hwcd]; split <;> (try rw [Array.size_map]) <;> omega
      have hwc1 : ∀ i, i < k → gt wc1 i = (((S i).toList.drop (off * w)).take (min pkt (T - off) * w) ++
            (gt s.words_char i).toList.drop (min pkt (T - off) * w)).toArray := by
        intro i hi
        rcases Nat.lt_or_ge i nd with h | h
        · rw [r1' i (.inl h), r0 i h]
        · have := r1 (i - nd) (by omega)
          rw [show nd + (i - nd) = i by omega, r0' i h] at this
          exact this
      have hwc : ∀ i, i < k → gt wc i = padPkt (pkt * w) (((S i).toList.take (T * w)).drop (off * w)) := by
        intro i hi
        rw [← copyPad (dst := gt s.words_char i) (hS i hi) hlt (by rw [hw2 i hi, hbs]), hwcd]
        by_cases hm : min pkt (T - off) < pkt
        · rw [if_pos hm, if_pos hm, gt_map (by omega), hwc1 i hi]
        · rw [if_neg hm, if_neg hm, hwc1 i hi]
      obtain ⟨s', e', q1, q2, q3, q4, _, q5⟩ := decStep_spec hE (wm := wm) (om := om) (off := off)
        (s := { s with words_char := wc }) (props := props) (Good := Good) (rows := rows)
        (S := fun i t => wordAt w ((S i).toList.take (T * w)) t)
        hgl hgf (fun {C H} h1 h2 => hdec hlt.le h1 h2) hws hos hinj hG (by rw [hk]; exact hwcs.ge)
        (fun i hi => by show (gt wc i).size = _; rw [hwc i (by omega), padPkt_size, hbs])
        (fun i c hi hc => by
          show wordAt _ (gt wc i).toList c = _
          rw [hwc i (by omega), hEw, wordAt_padPkt hc])
        (by rw [hk]; exact hc1) (fun i hi => hc2 i (by omega))
      rw [hk] at q3 q4 q5
      rw [hEw] at q5
      obtain ⟨datas', eo, o1, o2⟩ := writeBlocks_spec (w := w) (n := k) (off := off) (c := min pkt (T - off)) (pkt := pkt)
        (wanted := wanted) (oc := s'.out_char) (F := fun i t => gt (rows t) i) (blocks0 := datas0) (blocks := datas) hwz h1.ge
        q3 (fun i hi hw => by
          obtain ⟨x, h3, h4⟩ := hwant i hi hw
          exact ⟨x, h3, by rw [Nat.add_mul]; omega⟩) h2 (min_le_left _ _) q5
      have hmin : min (off + pkt) T = off + min pkt (T - off) := by omega
      obtain ⟨res, Hf, Cf, tf, ef, hres⟩ := ih (off := off + pkt) (fuel := fuel) (datas := datas') (s := s') (by omega) (by omega)
        (by omega) (fun f hf => by rw [o2 f hf, hmin]) q2 (by rw [q1]; exact hwcs.symm)
        (fun i hi => by rw [q1]; show (gt wc i).size = _; rw [hwc i hi, padPkt_size, hbs]) q3 q4
      refine ⟨res, Hf, Cf, tf, ?_, hres⟩
      unfold decBlockLoop
      rw [if_pos hlt]
      simp only [hEw, hk] at e' ef ⊢
      rw [e0, ok_bind, e1, ok_bind, ← hwcd, e', ok_bind, eo, ok_bind]
      exact ef
    · rw [min_eq_right (by omega)] at h2
      refine ⟨datas, s.H, s.C, off, ?_, hG, h1, h2⟩
      unfold decBlockLoop
      rw [if_neg hlt]
      rfl

/-- all that decoding of the caller's blocks can do, given fragments of an encoding -/
theorem decode_blocks_vertical_spec (hE : E.VSpec st mk b0 Live) (hpkt : 0 < E.base.pkt_size) {C0 : CtxB} {H : Heap}
    (hL : Live C0 H) {D : Nat → List Nat} {T bytes : Nat} {datas pars : Array (Option (Array Nat))} {props : Array Properties}
    {missing wanted : Array Bool} (mem : Nat → Nat) (junk : Nat → Nat → Nat)
    (hTb : bytes / E.base.word_size = T)
    (hD : ∀ i, i < E.base.n_data → ∀ x ∈ D i, x < 256)
    (hT : ∀ i, i < E.base.n_data → (D i).length = T * E.base.word_size)
    (h1 : datas.size = E.base.n_data) (h2 : pars.size = E.base.n_outputs) (h3 : props.size = E.base.n_outputs)
    (hm : missing.size = if E.base.sys then E.base.n_data + E.base.n_outputs else E.base.n_outputs)
    (hwz : E.base.n_data ≤ wanted.size)
    (hdat : E.base.sys = true → ∀ i, i < E.base.n_data → gt missing i = false →
      ∃ d, gt datas i = some d ∧ T * E.base.word_size ≤ d.size ∧ d.toList.take (T * E.base.word_size) = D i)
    (hpar : ∀ f, f < E.base.n_outputs → gt missing (if E.base.sys then E.base.n_data + f else f) = false →
      (∃ d, gt pars f = some d ∧ T * E.base.word_size ≤ d.size ∧ d.toList.take (T * E.base.word_size)
        = flat E.base.word_size (fun t => st (rowAt E.base.word_size E.base.n_data D t) f) T) ∧
      gt props f = ⟨marksOf (fun t => mk (rowAt E.base.word_size E.base.n_data D t) f) T⟩)
    (hwant : ∀ i, i < E.base.n_data → gt wanted i = true → ∃ d, gt datas i = some d ∧ T * E.base.word_size ≤ d.size)
    {pres pmask : Array Bool} (hpres : pres = missing.map (fun b => !b))
    (hpm : pmask = if E.base.sys then pres.extract E.base.n_data pres.size else pres) :
    ∃ res, E.decode_blocks_vertical datas pars props missing wanted bytes mem junk H = .ok res ∧ Live C0 res.2.2 ∧
      (if (E.base.dataList pres).length = E.base.n_data then res = (true, datas, H)
       else if (E.base.dataList pres).length + (present pmask E.base.n_outputs).length < E.base.n_data then
          res = (false, datas, H)
       else res.1 = true ∧ res.2.1.size = E.base.n_data ∧ ∀ i, i < E.base.n_data →
          gt res.2.1 i = if gt wanted i then (gt datas i).map
            (fun d => (D i ++ d.toList.drop (T * E.base.word_size)).toArray) else gt datas i) := by
  have hk := hE.kpos
  have hwp := hE.w.pos
  have hpz : pres.size = missing.size := by rw [hpres, Array.size_map]
  have hpmz : pmask.size = E.base.n_outputs := by
    rw [hpm]
    by_cases hs : E.base.sys = true
    · rw [if_pos hs] at hm ⊢
      rw [Array.size_extract]; omega
    · rw [if_neg hs] at hm ⊢; omega
  have hpg : ∀ i, i < missing.size → gt pres i = !gt missing i := fun i hi => by rw [hpres, gt_map hi]
  have hpmg : ∀ f, f < E.base.n_outputs → gt pmask f = !gt missing (if E.base.sys then E.base.n_data + f else f) := by
    intro f hf
    rw [hpm]
    by_cases hs : E.base.sys = true
    · rw [if_pos hs] at hm ⊢
      rw [if_pos hs, gt_extract (by omega) (by omega), hpg _ (by omega)]
    · rw [if_neg hs] at hm ⊢
      rw [if_neg hs, hpg _ (by omega)]
  have hsel := E.base.selectFragments_spec hk (data := pres) (parities := pmask) mem
    (fun h => by rw [hpz, hm, if_pos h]; omega) (by omega)
  have hgo : E.decode_blocks_vertical datas pars props missing wanted bytes mem junk H =
      (E.base.selectFragments pres pmask mem >>= fun sel =>
        match sel with
        | .allData => pure (true, datas, H)
        | .tooFew => pure (false, datas, H)
        | .use ids apar nd => do
          let ids := (ids.toList.mergeSort (fun x y => decide (x ≤ y))).toArray
          let (H, words) := Bufs.full junk H E.base.n_data E.base.pkt_size
          let (H, output) := Bufs.full junk H E.base.n_data E.base.pkt_size
          let (H, C, props) ← E.init_context_dec ids props E.base.pkt_size output mem junk H
          let (datas, H) ← E.decBlockLoop words output ids apar nd pars props wanted T (T + 1) datas 0
            ⟨C, H, freshChars junk E.base.n_data E.buf_size, freshChars junk E.base.n_data E.buf_size⟩
          pure (true, datas, H)) := by
    unfold decode_blocks_vertical
    simp only [cassert, h1, h2, h3, decide_true, if_true, hTb, ← hpres, ← hpm]
    split <;> rfl
  rw [hgo, hsel, ok_bind]
  by_cases hall : (E.base.dataList pres).length = E.base.n_data
  · exact ⟨(true, datas, H), by rw [if_pos hall]; rfl, hL, by rw [if_pos hall]⟩
  by_cases hfew : (E.base.dataList pres).length + (present pmask E.base.n_outputs).length < E.base.n_data
  · exact ⟨(false, datas, H), by rw [if_neg hall, if_pos hfew]; rfl, hL, by rw [if_neg hall, if_pos hfew]⟩
  rw [if_neg hall, if_neg hfew]
  have hc := chosen_spec E.base hall hfew
  generalize (E.base.dataList pres ++ (E.base.parList pres pmask).map
    (fun i => if E.base.sys then E.base.n_data + i else i)).toArray = ids at hc ⊢
  generalize (E.base.parList pres pmask).toArray = apar at hc ⊢
  generalize (E.base.dataList pres).length = nd at hc hall hfew ⊢
  have hpm' : ∀ i, i < E.base.n_data - nd → (∃ d, gt pars (gt apar i) = some d ∧ T * E.base.word_size ≤ d.size ∧
      d.toList.take (T * E.base.word_size)
      = flat E.base.word_size (fun t => st (rowAt E.base.word_size E.base.n_data D t) (gt apar i)) T) ∧
      gt props (gt apar i) = ⟨marksOf (fun t => mk (rowAt E.base.word_size E.base.n_data D t) (gt apar i)) T⟩ := by
    intro i hi
    obtain ⟨q1, q2, _⟩ := hc.par i hi
    rw [hpmg _ q1] at q2
    exact hpar _ q1 (by simpa using q2)
  have hdm' : ∀ i, i < nd → ∃ d, gt datas (gt ids i) = some d ∧ T * E.base.word_size ≤ d.size ∧
      d.toList.take (T * E.base.word_size) = D (gt ids i) := by
    intro i hi
    obtain ⟨q1, q2, q3⟩ := hc.data i hi
    rw [hpg _ (by rw [hm, if_pos q1]; omega)] at q3
    exact hdat q1 _ q2 (by simpa using q3)
  obtain ⟨H1, H2, wm, om, e1, e2, hio, hL2⟩ := alloc_spec hE hL junk E.base.n_data
  obtain ⟨wz, wg⟩ := freshChars_spec junk E.base.n_data E.buf_size
  obtain ⟨Good, H3, C, props', e3, g0, g1, g2, g3⟩ := dec_start hE hc hD hT hL2 h3 (fun i hi => (hpm' i hi).2) hio mem junk
  obtain ⟨Sb, hSb1, hSb2⟩ : ∃ Sb : Nat → Array Nat, (∀ i, i < nd → gt datas (gt ids i) = some (Sb i)) ∧
      (∀ i, i < E.base.n_data - nd → gt pars (gt apar i) = some (Sb (nd + i))) := by
    refine ⟨fun i => if i < nd then (gt datas (gt ids i)).getD #[] else (gt pars (gt apar (i - nd))).getD #[], fun i hi => ?_,
      fun i hi => ?_⟩
    · obtain ⟨d, hd, _⟩ := hdm' i hi
      simp only [if_pos hi, hd]; rfl
    · obtain ⟨⟨d, hd, _⟩, _⟩ := hpm' i hi
      simp only [if_neg (show ¬ nd + i < nd by omega), Nat.add_sub_cancel_left, hd]; rfl
  have hSz : ∀ i, i < E.base.n_data → T * E.base.word_size ≤ (Sb i).size ∧ (Sb i).toList.take (T * E.base.word_size)
      = (if i < nd then D (gt ids i)
        else flat E.base.word_size (fun t => st (rowAt E.base.word_size E.base.n_data D t) (gt apar (i - nd))) T) := by
    intro i hi
    by_cases hn : i < nd
    · obtain ⟨d, hd, q⟩ := hdm' i hn
      rw [hSb1 i hn] at hd
      obtain rfl := Option.some.inj hd
      rw [if_pos hn]; exact q
    · obtain ⟨⟨d, hd, q⟩, _⟩ := hpm' (i - nd) (by omega)
      have := hSb2 (i - nd) (by omega)
      rw [show nd + (i - nd) = i by omega] at this
      rw [this] at hd
      obtain rfl := Option.some.inj hd
      rw [if_neg hn]; exact q
  obtain ⟨datas', H4, C', t', e4, gf, so, ho⟩ := decBlockLoop_spec hE hpkt (k := E.base.n_data) (nd := nd) (w := E.base.word_size) (T := T)
    (rows := rowAt E.base.word_size E.base.n_data D) (ids := ids) (apar := apar) (wm := wm) (om := om) (props := props')
    (datas0 := datas) (pars := pars) (wanted := wanted)
    (Good := Good) (S := Sb) (sys := E.base.sys) rfl rfl rfl hc.lt hc.ndz
    (by rw [hc.valid.size]; exact hc.lt.le) hc.asz.ge
    (fun i hi => ⟨(hc.data i hi).2.1, hSb1 i hi⟩)
    (fun i hi => ⟨by rw [h2]; exact (hc.par i hi).1, hSb2 i hi⟩) (fun i hi => (hSz i hi).1) hwz hwant
    (fun h => (g1 h).2) g2
    (fun {off C H} h5 h6 h7 => by
      obtain ⟨C', H', q1, q2, q3⟩ := g3 h5 h6 (fun i c hi hcc => by rw [h7 i c hi hcc, (hSz i hi).2])
      exact ⟨C', H', q1, q2, fun i c hi hc' => congrArg (· % _) (q3 i c hi hc')⟩)
    hio.wsz hio.osz hio.inj (d := T) (off := 0) (fuel := T + 1)
    (datas := datas) (s := ⟨C, H3, freshChars junk E.base.n_data E.buf_size,
      freshChars junk E.base.n_data E.buf_size⟩) (by omega) (by omega) h1
    (fun i hi => by rw [Nat.zero_min, written_zero]) g0 wz.symm wg wz.ge wg
  refine ⟨(true, datas', H4), ?_, (g1 gf).1, ?_⟩
  · simp only
    rw [hc.sorted, e1]
    simp only
    rw [e2]
    simp only
    rw [e3, ok_bind]
    simp only
    rw [e4, ok_bind]
    rfl
  · rw [if_neg hall, if_neg hfew]
    refine ⟨rfl, so, fun i hi => ?_⟩
    rw [ho i hi]
    unfold Written
    congr 2
    funext s
    rw [flat_congr (g := wordAt E.base.word_size (D i)) (fun t _ => rowAt_gt hi), flat_wordAt (hT i hi).ge (hD i hi),
      List.take_of_length_le (hT i hi).le]

end FecV
end Quad
