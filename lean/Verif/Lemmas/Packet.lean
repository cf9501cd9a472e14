import Verif.Lemmas.BufOps
import Verif.Lemmas.FecSelect

/-!
Packets of bytes: reading, packing into words, unpacking, writing.
-/

namespace Quad

theorem leBytes_mod (w v : Nat) : leBytes w (v % 256 ^ w) = leBytes w v := by
  induction w generalizing v with
  | zero => rfl
  | succ w ih =>
    unfold leBytes
    have h1 : v % 256 ^ (w + 1) % 256 = v % 256 := Nat.mod_mod_of_dvd _ (by rw [pow_succ]; exact Dvd.intro_left _ rfl)
    have h2 : v % 256 ^ (w + 1) / 256 = v / 256 % 256 ^ w := by
      rw [pow_succ, mul_comm, Nat.mod_mul_right_div_self]
    rw [h1, h2, ih]

theorem leBytes_get {w v t : Nat} (h : t < w) : (leBytes w v)[t]? = some (v / 256 ^ t % 256) := by
  induction w generalizing v t with
  | zero => omega
  | succ w ih =>
    unfold leBytes
    cases t with
    | zero => simp
    | succ t =>
      rw [List.getElem?_cons_succ, ih (by omega), pow_succ, mul_comm, Nat.div_div_eq_div_mul]

theorem flat_get {w : Nat} {f : Nat → Nat} {T j t : Nat} (hj : j < T) (ht : t < w) :
    (flat w f T)[j * w + t]? = some (f j / 256 ^ t % 256) := by
  obtain ⟨d, rfl⟩ : ∃ d, T = j + 1 + d := ⟨T - (j + 1), by omega⟩
  rw [flat_add, flat_succ, List.append_assoc, List.getElem?_append_right (by rw [flat_length]; omega), flat_length,
    Nat.add_sub_cancel_left, List.getElem?_append_left (by rw [leBytes_length]; exact ht), leBytes_get ht]

theorem flat_take {w : Nat} {f : Nat → Nat} {T n : Nat} (h : n ≤ T) : (flat w f T).take (n * w) = flat w f n := by
  obtain ⟨d, rfl⟩ : ∃ d, T = n + d := ⟨T - n, by omega⟩
  rw [flat_add, List.take_left' (flat_length _ _ _)]

theorem leVal_zeros (n : Nat) : leVal (List.replicate n 0) = 0 := by
  induction n with
  | zero => rfl
  | succ n ih => rw [List.replicate_succ]; unfold leVal; rw [ih]

theorem wordAt_oob {w : Nat} {l : List Nat} {t : Nat} (h : l.length ≤ t * w) : wordAt w l t = 0 := by
  unfold wordAt; rw [List.drop_of_length_le h]; simp [leVal]

/-- the packet read from a stream: the rest of the packet is zero -/
def padPkt (buf : Nat) (l : List Nat) : Array Nat := (l.take buf ++ List.replicate (buf - l.length) 0).toArray

@[simp] theorem padPkt_size (buf : Nat) (l : List Nat) : (padPkt buf l).size = buf := by
  unfold padPkt; simp; omega

theorem padPkt_bytes {buf : Nat} {l : List Nat} (h : ∀ x ∈ l, x < 256) : ∀ x ∈ (padPkt buf l).toList, x < 256 := by
  intro x hx
  unfold padPkt at hx
  rcases List.mem_append.mp hx with hx | hx
  · exact h x (List.mem_of_mem_take hx)
  · rw [List.eq_of_mem_replicate hx]; omega

theorem leVal_append_zeros (l : List Nat) (n : Nat) : leVal (l ++ List.replicate n 0) = leVal l := by
  induction l with
  | nil => rw [List.nil_append, leVal_zeros]; rfl
  | cons x l ih =>
    show x + 256 * leVal (l ++ List.replicate n 0) = x + 256 * leVal l
    rw [ih]

/-- word `c` of a packet read at offset `off` words: a short word is filled with zeros -/
theorem wordAt_padPkt {w pkt off c : Nat} {l : List Nat} (hc : c < pkt) :
    wordAt w (padPkt (pkt * w) (l.drop (off * w))).toList c = wordAt w l (off + c) := by
  unfold padPkt wordAt
  have hcw : c * w + w ≤ pkt * w := by
    have := Nat.mul_le_mul_right w (show c + 1 ≤ pkt by omega)
    rw [Nat.add_mul, Nat.one_mul] at this; exact this
  show leVal (List.take w (List.drop (c * w) (List.take (pkt * w) (l.drop (off * w)) ++ List.replicate (pkt * w - (l.drop (off * w)).length) 0))) = _
  rw [List.drop_append, List.take_append, List.drop_replicate, List.take_replicate, leVal_append_zeros, List.drop_take,
      List.take_take, List.drop_drop, Nat.add_mul, min_eq_left (by omega)]

theorem readPkt_eq (buf : Nat) (l : List Nat) :
    readPkt buf l = (padPkt buf l, l.drop buf, if l.length < buf then some l.length else none) := by
  unfold readPkt padPkt
  split
  · rename_i h
    rw [List.take_of_length_le (by omega), List.drop_of_length_le (by omega)]
  · rename_i h
    rw [show buf - l.length = 0 by omega]; simp

/-- one packet of each of `count` streams with `r` bytes left -/
theorem readPkts_spec {buf count dst r : Nat} {idx : Nat → Res Nat} {ix : Nat → Nat} {streams : Array (Option (List Nat))}
    {wc : Array (Array Nat)} {rb : Nat} {cont : Bool} {R : Nat → List Nat}
    (hidx : ∀ i, i < count → idx i = .ok (ix i)) (hinj : ∀ i j, i < count → j < count → ix i = ix j → i = j)
    (hlt : ∀ i, i < count → ix i < streams.size) (hs : ∀ i, i < count → gt streams (ix i) = some (R i))
    (hr : ∀ i, i < count → (R i).length = r) (hwc : dst + count ≤ wc.size) :
    ∃ streams' wc', readPkts buf count dst idx (streams, wc, rb, cont)
        = .ok (streams', wc', if 0 < count ∧ r < buf then r else rb, if 0 < count ∧ r < buf then false else cont) ∧
      streams'.size = streams.size ∧ wc'.size = wc.size ∧
      (∀ i, i < count → gt streams' (ix i) = some ((R i).drop buf)) ∧
      (∀ i, i < count → gt wc' (dst + i) = padPkt buf (R i)) ∧
      (∀ j, j < dst ∨ dst + count ≤ j → gt wc' j = gt wc j) := by
  obtain ⟨s, e, h1, h2, h3, h4, h5, h6, h7, _⟩ := forN_inv (n := count) (s := (streams, wc, rb, cont))
    (f := fun i (s : Array (Option (List Nat)) × Array (Array Nat) × Nat × Bool) => do
      let j ← idx i
      let st ← rd s.1 j
      match st with
      | none => ub
      | some st => do
        let r := readPkt buf st
        let wc ← wr s.2.1 (dst + i) r.1
        let streams ← wr s.1 j (some r.2.1)
        match r.2.2 with
        | some g => pure (streams, wc, g, false)
        | none => pure (streams, wc, s.2.2.1, s.2.2.2))
    (I := fun t (s : Array (Option (List Nat)) × Array (Array Nat) × Nat × Bool) =>
      s.1.size = streams.size ∧ s.2.1.size = wc.size ∧ s.2.2.1 = (if 0 < t ∧ r < buf then r else rb) ∧
      s.2.2.2 = (if 0 < t ∧ r < buf then false else cont) ∧
      (∀ i, i < t → gt s.1 (ix i) = some ((R i).drop buf)) ∧
      (∀ i, i < t → gt s.2.1 (dst + i) = padPkt buf (R i)) ∧
      (∀ j, j < dst ∨ dst + count ≤ j → gt s.2.1 j = gt wc j) ∧
      (∀ i, t ≤ i → i < count → gt s.1 (ix i) = some (R i)))
    ⟨rfl, rfl, by simp, by simp, by simp, by simp, fun _ _ => rfl, fun i _ hi => hs i hi⟩ (by
      rintro t ⟨ss, ws, b, c⟩ ht ⟨i1, i2, i3, i4, i5, i6, i7, i8⟩
      simp only at i1 i2 i3 i4 i5 i6 i7 i8
      have hl := hlt t ht
      simp only [hidx t ht, ok_bind]
      rw [rd_gt (a := ss) (by omega), ok_bind, i8 t le_rfl ht]
      simp only [readPkt_eq]
      rw [wr_ok (by omega), ok_bind, wr_ok (by omega), ok_bind, hr t ht]
      have key : ∀ (b' : Nat) (c' : Bool), b' = (if 0 < t + 1 ∧ r < buf then r else rb) →
          c' = (if 0 < t + 1 ∧ r < buf then false else cont) → ∃ s', (pure (ss.setIfInBounds (ix t) (some ((R t).drop buf)),
            ws.setIfInBounds (dst + t) (padPkt buf (R t)), b', c') : Res _) = .ok s' ∧
          (s'.1.size = streams.size ∧ s'.2.1.size = wc.size ∧ s'.2.2.1 = (if 0 < t + 1 ∧ r < buf then r else rb) ∧
            s'.2.2.2 = (if 0 < t + 1 ∧ r < buf then false else cont) ∧
            (∀ i, i < t + 1 → gt s'.1 (ix i) = some ((R i).drop buf)) ∧
            (∀ i, i < t + 1 → gt s'.2.1 (dst + i) = padPkt buf (R i)) ∧
            (∀ j, j < dst ∨ dst + count ≤ j → gt s'.2.1 j = gt wc j) ∧
            (∀ i, t + 1 ≤ i → i < count → gt s'.1 (ix i) = some (R i))) := by
        intro b' c' hb hc
        refine ⟨_, rfl, by simp [i1], by simp [i2], hb, hc, ?_, ?_, ?_, ?_⟩
        · intro i hi
          simp only
          rw [gt_set (by omega)]
          by_cases h : i = t
          · subst h; rw [if_pos rfl]
          · rw [if_neg (fun he => h (hinj i t (by omega) ht he))]; exact i5 i (by omega)
        · intro i hi
          simp only
          rw [gt_set (by omega)]
          by_cases h : i = t
          · subst h; rw [if_pos rfl]
          · rw [if_neg (by omega)]; exact i6 i (by omega)
        · intro j hj
          simp only
          rw [gt_set (by omega), if_neg (by omega)]; exact i7 j hj
        · intro i hi hic
          simp only
          rw [gt_set (by omega), if_neg (fun he => by have := hinj i t hic ht he; omega)]
          exact i8 i (by omega) hic
      by_cases hlt : r < buf
      · simp only [if_pos hlt]
        exact key r false (by simp [hlt]) (by simp [hlt])
      · simp only [if_neg hlt]
        exact key b c (by rw [i3]; simp [hlt]) (by rw [i4]; simp [hlt]))
  refine ⟨s.1, s.2.1, ?_, h1, h2, h5, h6, h7⟩
  rw [← h3, ← h4]
  exact e

/-- writing the first `n` bytes of each packet -/
theorem writePkts_bytes {w n N pkt : Nat} {oc : Array (Array Nat)} {outs : Array (Option (List Nat))} {f : Nat → Nat → Nat}
    (h1 : N ≤ oc.size) (h2 : N ≤ outs.size) (hn : n ≤ pkt * w) (hoc : ∀ i, i < N → gt oc i = (flat w (f i) pkt).toArray) :
    ∃ r, writePkts N (n) oc outs = .ok r ∧ r.size = outs.size ∧
      ∀ i, i < N → gt r i = (gt outs i).map (fun s => s ++ (flat w (f i) pkt).take n) := by
  obtain ⟨r, e, i1, i2, _⟩ := forN_inv (n := N) (s := outs) (f := fun i outs => do
      let o ← rd outs i
      match o with
      | none => pure outs
      | some s => do
        let c ← rd oc i
        if n ≤ c.size then wr outs i (some (s ++ (c.extract 0 (n)).toList)) else ub)
    (I := fun t (r : Array (Option (List Nat))) => r.size = outs.size ∧
      (∀ i, i < t → gt r i = (gt outs i).map (fun s => s ++ (flat w (f i) pkt).take n)) ∧ ∀ i, t ≤ i → gt r i = gt outs i)
    ⟨rfl, by simp, by simp⟩ (by
      rintro t r ht ⟨i1, i2, i3⟩
      rw [rd_gt (a := r) (by omega), ok_bind, i3 t le_rfl]
      cases ho : gt outs t with
      | none =>
        refine ⟨r, rfl, i1, ?_, fun i hi => i3 i (by omega)⟩
        intro i hi
        by_cases h : i = t
        · subst h; rw [i3 i le_rfl, ho]; rfl
        · exact i2 i (by omega)
      | some s =>
        simp only
        rw [rd_gt (a := oc) (by omega), ok_bind, hoc t ht,
          if_pos (by rw [List.size_toArray, flat_length]; exact hn), wr_ok (by omega)]
        refine ⟨_, rfl, by simp [i1], ?_, ?_⟩
        · intro i hi
          rw [gt_set (by omega)]
          by_cases h : i = t
          · subst h
            rw [if_pos rfl, ho]
            simp only [Option.map_some, List.extract_toArray, List.extract_eq_take_drop, Nat.sub_zero, List.drop_zero]
          · rw [if_neg h]; exact i2 i (by omega)
        · intro i hi
          rw [gt_set (by omega), if_neg (by omega)]; exact i3 i (by omega))
  exact ⟨r, e, i1, i2⟩

/-- writing the first `n` words of each packet -/
theorem writePkts_spec {w n N pkt : Nat} {oc : Array (Array Nat)} {outs : Array (Option (List Nat))} {f : Nat → Nat → Nat}
    (h1 : N ≤ oc.size) (h2 : N ≤ outs.size) (hn : n ≤ pkt) (hoc : ∀ i, i < N → gt oc i = (flat w (f i) pkt).toArray) :
    ∃ r, writePkts N (n * w) oc outs = .ok r ∧ r.size = outs.size ∧
      ∀ i, i < N → gt r i = (gt outs i).map (fun s => s ++ flat w (f i) n) := by
  obtain ⟨r, e, q1, q2⟩ := writePkts_bytes (n := n * w) h1 h2 (Nat.mul_le_mul_right _ hn) hoc
  exact ⟨r, e, q1, fun i hi => by rw [q2 i hi, flat_take hn]⟩

/-! ### pack and unpack -/

theorem packBlock_spec {w pkt d : Nat} {src : Array Nat} {H : Heap} (hsz : src.size = pkt * w) (hd : d < H.size)
    (h1 : (gt H d).size = pkt) :
    ∃ H', packBlock w pkt src d H = .ok H' ∧ OnlyAt d H H' ∧ (gt H' d).size = pkt ∧
      ∀ c, c < pkt → el H' d c = wordAt w src.toList c := by
  unfold packBlock
  obtain ⟨H', e, o, sz, g⟩ := blockLoop (H := H) (d := d) (f := fun j => leVal ((src.extract (j * w) ((j + 1) * w)).toList))
    (body := fun j H => if (j + 1) * w ≤ src.size then
      Heap.wrEl H d j (leVal ((src.extract (j * w) ((j + 1) * w)).toList)) else ub) hd h1 (by
      intro j H1 hj ho hsz' hg
      rw [if_pos (by rw [hsz]; exact Nat.mul_le_mul_right _ (by omega))])
  refine ⟨H', e, o, sz, fun c hc => ?_⟩
  unfold el wordAt
  rw [g c hc]
  congr 1
  rw [Array.toList_extract, List.extract_eq_take_drop, Nat.add_mul, Nat.one_mul, Nat.add_sub_cancel_left]

/-- `pack`: word `c` of packet `i` -/
theorem pack_spec {b w n pkt : Nat} {src : Array (Array Nat)} {dest : Array Nat} {H : Heap} (hw : WordSize w) (hb : 8 * w ≤ b)
    (h1 : n ≤ src.size) (h2 : dest.size = n) (hs : ∀ i, i < n → (gt src i).size = pkt * w) (hi : InjPtr dest)
    (ho : Okb pkt H dest) :
    ∃ H', pack b src dest n pkt w H = .ok H' ∧ Frame dest H H' ∧ Okb pkt H' dest ∧
      ∀ i c, i < n → c < pkt → el H' (gt dest i) c = wordAt w (gt src i).toList c := by
  unfold pack
  simp only [cassert, hb, decide_true, if_true, ok_bind]
  rw [if_pos (show w = 1 ∨ w = 2 ∨ w = 4 ∨ w = 8 ∨ w = 16 from hw)]
  obtain ⟨H', e, f, g, _⟩ := rowLoop (dest := dest) (pkt := pkt) (m := n) (H := H)
    (P := fun i H x => ∀ c, c < pkt → gt x c = wordAt w (gt src i).toList c)
    (body := fun i H => do
      let s ← rd src i
      let d ← rd dest i
      packBlock w pkt s d H) hi h2.ge (fun i H1 H2 x _ _ h => h) (by
      intro i H1 hi' hsz h
      have h3 := ho i (by omega)
      obtain ⟨H2, e, o, z, g⟩ := packBlock_spec (w := w) (H := H1) (d := gt dest i) (hs i hi') (by omega)
        (by rw [h _ (fun j hj he => by have := hi j i (by omega) (by omega) he; omega)]; exact h3.2)
      exact ⟨H2, by rw [rd_gt (a := src) (by omega), ok_bind, rd_gt (a := dest) (by omega), ok_bind, e], o, z, g⟩)
  refine ⟨H', e, f, fun i hi' => ?_, fun i c hi' hc => (g i hi').2 c hc⟩
  rw [f.size]
  exact ⟨(ho i hi').1, (g i (by omega)).1⟩

theorem unpackBlock_spec {w pkt s : Nat} {dst : Array Nat} {H : Heap} (hsz : dst.size = pkt * w) (hs : s < H.size)
    (h1 : (gt H s).size = pkt) : unpackBlock w pkt H s dst = .ok (flat w (el H s) pkt).toArray := by
  rcases Nat.eq_zero_or_pos w with hw | hw
  · subst hw
    have hd : dst = #[] := by apply Array.eq_empty_of_size_eq_zero; omega
    obtain ⟨r, e, h⟩ := forN_inv (n := pkt) (s := dst) (f := fun j dst => do
        let x ← Heap.rdEl H s j
        forN 0 dst (fun t dst => wr dst (j * 0 + t) (x / 256 ^ t % 256))) (I := fun _ d => d = dst) rfl (by
        rintro j d hj rfl
        exact ⟨d, by rw [Heap.rdEl_ok hs (by omega), ok_bind]; rfl, rfl⟩)
    unfold unpackBlock
    rw [e, h, hd]
    congr 1
    have : (flat 0 (el H s) pkt).length = 0 := by simp
    rw [List.length_eq_zero_iff.mp this]
  · obtain ⟨r, e, i1, i2⟩ := forN_inv (n := pkt) (s := dst) (f := fun j dst => do
        let x ← Heap.rdEl H s j
        forN w dst (fun t dst => wr dst (j * w + t) (x / 256 ^ t % 256)))
      (I := fun j (d : Array Nat) => d.size = pkt * w ∧ ∀ j', j' < j → ∀ t, t < w → gt d (j' * w + t) = el H s j' / 256 ^ t % 256)
      ⟨hsz, by simp⟩ (by
        rintro j d hj ⟨i1, i2⟩
        have hjw : j * w + w ≤ pkt * w := by
          have := Nat.mul_le_mul_right w (show j + 1 ≤ pkt by omega)
          rw [Nat.add_mul, Nat.one_mul] at this; exact this
        obtain ⟨d', e', k1, k2, k3⟩ := forN_inv (n := w) (s := d)
          (f := fun t dst => wr dst (j * w + t) (el H s j / 256 ^ t % 256))
          (I := fun u (d' : Array Nat) => d'.size = pkt * w ∧ (∀ t, t < u → gt d' (j * w + t) = el H s j / 256 ^ t % 256) ∧
            ∀ i, i < j * w → gt d' i = gt d i) ⟨i1, by simp, fun _ _ => rfl⟩ (by
            rintro u d' hu ⟨k1, k2, k3⟩
            refine ⟨_, wr_ok (by omega), by simp [k1], fun t ht => ?_, fun i hi => ?_⟩
            · rw [gt_set (by omega)]
              by_cases h : t = u
              · subst h; rw [if_pos rfl]
              · rw [if_neg (by omega)]; exact k2 t (by omega)
            · rw [gt_set (by omega), if_neg (by omega)]; exact k3 i hi)
        refine ⟨d', by rw [Heap.rdEl_ok hs (by omega), ok_bind]; exact e', k1, fun j' hj' t ht => ?_⟩
        by_cases h : j' = j
        · subst h; exact k2 t ht
        · have : j' * w + w ≤ j * w := by
            have := Nat.mul_le_mul_right w (show j' + 1 ≤ j by omega)
            rw [Nat.add_mul, Nat.one_mul] at this; exact this
          rw [k3 _ (by omega)]
          exact i2 j' (by omega) t ht)
    unfold unpackBlock
    rw [e]
    congr 1
    apply gt_ext (by rw [i1, List.size_toArray, flat_length])
    intro i hi
    rw [i1] at hi
    have hj : i / w < pkt := Nat.div_lt_of_lt_mul (by rwa [mul_comm])
    have ht := Nat.mod_lt i hw
    have he : i = i / w * w + i % w := by rw [mul_comm]; exact (Nat.div_add_mod i w).symm
    rw [he, i2 _ hj _ ht, Fec.gt_toArray, List.getD, flat_get hj ht]
    rfl

/-- `unpack`: the bytes of packet `i` -/
theorem unpack_spec {b w n pkt : Nat} {src : Array Nat} {dest : Array (Array Nat)} {H : Heap} (hw : WordSize w) (hb : 8 * w ≤ b)
    (h1 : n ≤ src.size) (h2 : n ≤ dest.size) (hs : ∀ i, i < n → (gt dest i).size = pkt * w) (ho : Okb pkt H src) :
    ∃ d, unpack b src dest n pkt w H = .ok d ∧ d.size = dest.size ∧
      ∀ i, i < n → gt d i = (flat w (el H (gt src i)) pkt).toArray := by
  unfold unpack
  simp only [cassert, hb, decide_true, if_true, ok_bind]
  rw [if_pos (show w = 1 ∨ w = 2 ∨ w = 4 ∨ w = 8 ∨ w = 16 from hw)]
  obtain ⟨d, e, i1, i2, _⟩ := forN_inv (n := n) (s := dest) (f := fun i dest => do
      let s ← rd src i
      let d ← rd dest i
      let d ← unpackBlock w pkt H s d
      wr dest i d)
    (I := fun t (d : Array (Array Nat)) => d.size = dest.size ∧ (∀ i, i < t → gt d i = (flat w (el H (gt src i)) pkt).toArray) ∧
      ∀ i, t ≤ i → gt d i = gt dest i) ⟨rfl, by simp, fun _ _ => rfl⟩ (by
      rintro t d ht ⟨i1, i2, i3⟩
      have := ho t (by omega)
      refine ⟨_, by rw [rd_gt (a := src) (by omega), ok_bind, rd_gt (a := d) (by omega), ok_bind,
        unpackBlock_spec (by rw [i3 t le_rfl]; exact hs t ht) this.1 this.2, ok_bind, wr_ok (by omega)], by simp [i1], fun i hi => ?_, fun i hi => ?_⟩
      · rw [gt_set (by omega)]
        by_cases h : i = t
        · subst h; rw [if_pos rfl]
        · rw [if_neg h]; exact i2 i (by omega)
      · rw [gt_set (by omega), if_neg (by omega)]; exact i3 i (by omega))
  exact ⟨d, e, i1, i2⟩

end Quad
