import Verif.Props.Corrupt
import Verif.Lemmas.Lengths

/-!
# Streams of different lengths (C63, C64)

The vocabulary is in Spec/Lengths.lean.
-/

namespace Quad.Props
open Quad Spec Polynomial

variable {c : FntCode}

theorem wholePkts_le {buf : Nat} (hb : 0 < buf) (L : Nat) : L ≤ wholePkts buf L := by
  rw [FecV.wholePkts_eq hb]
  have h1 := Nat.div_add_mod L buf
  have h2 := Nat.mod_lt L hb
  rw [Nat.mul_comm] at h1
  unfold fitLen
  split
  · omega
  · rw [Nat.add_mul]; omega

theorem wholePkts_words {pkt w : Nat} (L : Nat) : wholePkts (pkt * w) L = (L + pkt * w - 1) / (pkt * w) * pkt * w := by
  unfold wholePkts; ring

theorem word_fit {w n t : Nat} (s : List Nat) (h : (t + 1) * w ≤ n) : word w (fit n s) t = word w s t := by
  have h' : t * w + w ≤ n := by rw [Nat.add_mul, Nat.one_mul] at h; exact h
  rw [← wordAt_word, ← wordAt_word]
  unfold wordAt fit
  rw [List.drop_append, List.take_append, List.drop_replicate, List.take_replicate, leVal_append_zeros, List.drop_take, List.take_take, min_eq_left (by omega)]

theorem word_take {w n t : Nat} (s : List Nat) (h : (t + 1) * w ≤ n) : word w (s.take n) t = word w s t := by
  have h' : t * w + w ≤ n := by rw [Nat.add_mul, Nat.one_mul] at h; exact h
  unfold word
  rw [List.drop_take, List.take_take, min_eq_left (by omega)]

theorem fit_data {data : Array (List Nat)} (hs : data.size = c.k) (hb : ∀ i, i < c.k → ∀ x ∈ gt data i, x < 256) (T : Nat) :
    c.Data (data.map (fit (T * c.w))) T :=
  ⟨by simpa using hs, fun i hi => by rw [gt_map (by omega)]; exact fit_bytes (hb i hi), fun i hi => by rw [gt_map (by omega), fit_length]⟩

theorem reachable_buf (hc : c.Ok) {pkt : Nat} (hpkt : 0 < pkt) {R : RsFntObj} {C : CtxB} {H : Heap} (hr : c.Reachable pkt R C H) :
    (R.fecV c.b).buf_size = pkt * c.w ∧ (R.fecV c.b).base.n_data = c.k ∧ (R.fecV c.b).base.n_outputs = c.nOut ∧ (R.fecV c.b).base.sys = c.sys := by
  obtain ⟨p, n, _, g, r⟩ := FntCode.exists_root hc
  have h := hr.inv hpkt r
  refine ⟨?_, h.k, h.out, h.sys⟩
  show R.code.base.pkt_size * R.code.base.word_size = _
  rw [h.pkt, h.w]

/-- C63, what encoding does with data streams of any lengths: with `L` the length of the last of the streams that have the fewest full packets, it writes the
first `L` bytes of the fragments, and all properties, of the data cut or completed with zeros to `L` bytes rounded up to whole packets.
Missing: what is beyond is not protected, and this is not reported (`C63_data_lost`). -/
theorem C63_encode_partial (hc : c.Ok) {pkt : Nat} (hpkt : 0 < pkt) {R : RsFntObj} {C : CtxB} {H : Heap} (hr : c.Reachable pkt R C H)
    {data outs : Array (List Nat)} {props : Array Properties} (hs : data.size = c.k) (hb : ∀ i, i < c.k → ∀ x ∈ gt data i, x < 256)
    (ho : outs.size = c.nOut) (hp : props.size = c.nOut) (junk : Nat → Nat → Nat) {j : Nat}
    (hj : LastShort (pkt * c.w) c.k (fun i => (gt data i).length) j) :
    ∃ frags fprops, c.Encoded (data.map (fit (wholePkts (pkt * c.w) (gt data j).length))) frags fprops ∧
      ∃ o C' H', (R.fecV c.b).encode_streams_vertical C data outs props junk H = .ok (o, fprops, C', H') ∧ c.Reachable pkt R C' H' ∧
        o.size = c.nOut ∧ ∀ f, f < c.nOut → (gt frags f).length = wholePkts (pkt * c.w) (gt data j).length ∧
          gt o f = some (gt outs f ++ (gt frags f).take (gt data j).length) := by
  obtain ⟨e1, e2, e3, e4⟩ := reachable_buf hc hpkt hr
  have hw0 : 0 < c.w := by rcases hc.hw with h | h <;> omega
  have hbuf : 0 < pkt * c.w := Nat.mul_pos hpkt hw0
  rw [wholePkts_words]
  obtain ⟨frags, fprops, z1, z2, z3, z4, z5⟩ := C36_streams_unique_partial hc (fit_data hs hb (((gt data j).length + pkt * c.w - 1) / (pkt * c.w) * pkt))
  obtain ⟨o, C', H', e, q1, q2, q3⟩ := z5 hpkt hr outs props junk ho hp
  refine ⟨frags, fprops, (z4 _ _).mpr ⟨rfl, rfl⟩, ?_⟩
  rw [← wholePkts_words, ← e1] at e
  obtain ⟨o', e', hcut⟩ := FecV.encode_streams_vertical_fit (by rw [e1]; exact hbuf) (by rw [e1, e2]; exact hj) e
  refine ⟨o', C', H', e', q3, by rw [hcut.size']; simpa using ho, fun f hf => ⟨z3 f hf, ?_⟩⟩
  rw [hcut.some f (gt outs f) (by rw [e3]; exact hf) (gt_map (by omega)), q2 f hf, Option.map_some, List.take_append, List.take_of_length_le (by omega),
    Nat.add_sub_cancel_left]

/-- the full C63 fails: whatever the code, if it has at least two data streams, data that differ are encoded without a complaint into the same fragments and
properties, by every object of the code -/
theorem C63_data_lost (hc : c.Ok) (h2 : 2 ≤ c.k) : ∃ data data' : Array (List Nat), data ≠ data' ∧ data.size = c.k ∧ data'.size = c.k ∧
    (∀ i, i < c.k → (gt data i).length = (gt data' i).length ∧ (∀ x ∈ gt data i, x < 256) ∧ ∀ x ∈ gt data' i, x < 256) ∧
    ∀ {pkt : Nat}, 0 < pkt → ∀ {R : RsFntObj} {C : CtxB} {H : Heap}, c.Reachable pkt R C H → ∀ (outs : Array (List Nat)) (props : Array Properties)
      (junk : Nat → Nat → Nat), outs.size = c.nOut → props.size = c.nOut →
      ∃ o p C1 H1 C2 H2, (R.fecV c.b).encode_streams_vertical C data outs props junk H = .ok (o, p, C1, H1) ∧
        (R.fecV c.b).encode_streams_vertical C data' outs props junk H = .ok (o, p, C2, H2) := by
  have hk := hc.hk
  let D : Nat → Array (List Nat) := fun x => Array.ofFn (fun i : Fin c.k => if i.1 = 0 then [x] else [])
  have hD : ∀ x i, i < c.k → gt (D x) i = if i = 0 then [x] else [] := fun x i hi => gt_ofFn hi
  have hsz : ∀ x, (D x).size = c.k := fun x => by simp [D]
  have hby : ∀ x, x < 256 → ∀ i, i < c.k → ∀ y ∈ gt (D x) i, y < 256 := by
    intro x hx i hi y hy
    rw [hD x i hi] at hy
    split at hy
    · rw [List.mem_singleton.mp hy]; exact hx
    · cases hy
  refine ⟨D 1, D 2, ?_, hsz _, hsz _, fun i hi => ⟨?_, hby 1 (by omega) i hi, hby 2 (by omega) i hi⟩, ?_⟩
  · intro h
    have := congrArg (fun a => gt a 0) h
    simp only [hD _ 0 hk] at this
    simp at this
  · rw [hD 1 i hi, hD 2 i hi]; split <;> rfl
  · intro pkt hpkt R C H hr outs props junk ho hp
    have hj : ∀ x, LastShort (pkt * c.w) c.k (fun i => (gt (D x) i).length) (c.k - 1) := by
      intro x
      refine ⟨by omega, fun i hi => ?_, fun i h1 h2 => by omega⟩
      rw [hD x _ (by omega), if_neg (by omega)]; simp
    have hz : ∀ x, (gt (D x) (c.k - 1)).length = 0 := fun x => by rw [hD x _ (by omega), if_neg (by omega)]; rfl
    obtain ⟨fr, fp, he, o, C1, H1, e, _, s1, s2⟩ := C63_encode_partial hc hpkt hr (hsz 1) (hby 1 (by omega)) ho hp junk (hj 1)
    obtain ⟨fr', fp', he', o', C1', H1', e', _, s1', s2'⟩ := C63_encode_partial hc hpkt hr (hsz 2) (hby 2 (by omega)) ho hp junk (hj 2)
    rw [hz] at s2 s2' he he'
    have hw0 : wholePkts (pkt * c.w) 0 = 0 := by
      have hw0 : 0 < c.w := by rcases hc.hw with h | h <;> omega
      have := Nat.mul_pos hpkt hw0
      unfold wholePkts; rw [Nat.div_eq_of_lt (by omega), Nat.zero_mul]
    rw [hw0] at he he'
    have hoo : o = o' := gt_ext (by omega) (fun f hf => by
      rw [(s2 f (by omega)).2, (s2' f (by omega)).2]
      simp)
    have hdd : (D 1).map (fit 0) = (D 2).map (fit 0) := gt_ext (by simp [hsz]) (fun i hi => by
      have hi' : i < c.k := by simpa [hsz] using hi
      rw [gt_map (by rw [hsz]; exact hi'), gt_map (by rw [hsz]; exact hi')]
      simp [fit])
    rw [hdd] at he
    obtain ⟨_, _, _, _, _, hu, _⟩ := C36_streams_unique_partial hc (T := 0) (data := (D 2).map (fit 0)) (by
      have := fit_data (hsz 2) (hby 2 (by omega)) 0
      rwa [Nat.zero_mul] at this)
    have h3 := (hu _ _).mp he
    have h4 := (hu _ _).mp he'
    have : fp = fp' := by rw [h3.2, h4.2]
    subst hoo; subst this
    exact ⟨o, fp, C1, H1, C1', H1', e, e'⟩

theorem fitAll_avail (n : Nat) (a : Array (Option (List Nat))) : avail (FecV.fitAll n a) = avail a := by
  unfold avail FecV.fitAll
  rw [Array.toList_map, List.countP_map]
  congr 1
  funext x
  cases x <;> rfl

theorem fitAll_fragments (n : Nat) (datas pars : Array (Option (List Nat))) :
    c.fragments (FecV.fitAll n datas) (FecV.fitAll n pars) = FecV.fitAll n (c.fragments datas pars) := by
  unfold FntCode.fragments FecV.fitAll
  split
  · rw [Array.map_append]
  · rfl

theorem fitAll_picked (k n : Nat) (fr : Array (Option (List Nat))) : picked k (FecV.fitAll n fr) = picked k fr := by
  unfold picked
  rw [FecV.fitAll_size]
  congr 1
  refine List.filter_congr (fun i _ => ?_)
  rw [FecV.fitAll_gt]
  cases gt fr i <;> rfl

theorem fitAll_seen {n t : Nat} (fr : Array (Option (List Nat))) (props : Array Properties) (j : Nat) (h : (t + 1) * c.w ≤ n) :
    c.seen (FecV.fitAll n fr) props j t = c.seen fr props j t := by
  unfold FntCode.seen
  rw [FecV.fitAll_gt]
  congr 1
  cases gt fr j with
  | none => rfl
  | some s => exact word_fit s h

theorem fitAll_any {datas pars : Array (Option (List Nat))} {props : Array Properties} (ha : c.AnyLengths datas pars props) (T : Nat) :
    c.AnyStreams T (FecV.fitAll (T * c.w) datas) (FecV.fitAll (T * c.w) pars) props := by
  refine ⟨fun h => by rw [FecV.fitAll_size]; exact ha.dsize h, by rw [FecV.fitAll_size]; exact ha.psize, ha.prsize, fun hs i s hi h => ?_, fun f s hf h => ?_⟩
  · rw [FecV.fitAll_gt, Option.map_eq_some_iff] at h
    obtain ⟨s', h1, rfl⟩ := h
    exact ⟨fit_length _ _, fit_bytes (ha.dat hs i s' hi h1)⟩
  · rw [FecV.fitAll_gt, Option.map_eq_some_iff] at h
    obtain ⟨s', h1, rfl⟩ := h
    exact ⟨fit_length _ _, fit_bytes (ha.par f s' hf h1)⟩

/-- decoding streams of any lengths is decoding the streams cut or completed to whole packets, of which fewer bytes are written -/
theorem decode_fit (hc : c.Ok) {pkt : Nat} (hpkt : 0 < pkt) {R : RsFntObj} {C : CtxB} {H H' : Heap} (hr : c.Reachable pkt R C H)
    {datas pars outs o : Array (Option (List Nat))} {props : Array Properties} (ha : c.AnyLengths datas pars props) (ho : outs.size = c.k)
    (hn : ¬ (c.sys = true ∧ avail datas = c.k)) (hen : c.k ≤ (if c.sys then avail datas else 0) + avail pars)
    {mem : Nat → Nat} {junk : Nat → Nat → Nat} {j : Nat} (hj : LastShort (pkt * c.w) c.k (c.pickedLen datas pars) j) {v : Bool}
    (h : (R.fecV c.b).decode_streams_vertical (FecV.fitAll (wholePkts (pkt * c.w) (c.pickedLen datas pars j)) datas)
      (FecV.fitAll (wholePkts (pkt * c.w) (c.pickedLen datas pars j)) pars) props outs mem junk H = .ok (v, o, H')) :
    ∃ o', (R.fecV c.b).decode_streams_vertical datas pars props outs mem junk H = .ok (v, o', H') ∧ Cut c.k (c.pickedLen datas pars j) outs o o' := by
  obtain ⟨e1, e2, e3, e4⟩ := reachable_buf hc hpkt hr
  have hw0 : 0 < c.w := by rcases hc.hw with h | h <;> omega
  have hbuf : 0 < pkt * c.w := Nat.mul_pos hpkt hw0
  have hdl : ((R.fecV c.b).base.dataList (datas.map Option.isSome)).length = if c.sys then avail datas else 0 := by
    unfold FecBase.dataList
    rw [e4, e2]
    by_cases hsy : c.sys = true
    · rw [if_pos hsy, if_pos hsy]; exact present_eq_avail datas (ha.dsize hsy)
    · rw [if_neg hsy, if_neg hsy]; rfl
  have hpl : (present (pars.map Option.isSome) (R.fecV c.b).base.n_outputs).length = avail pars := by rw [e3]; exact present_eq_avail pars ha.psize
  have := FecV.decode_streams_vertical_fit (E := R.fecV c.b) (by rw [e1]; exact hbuf) (by rw [e4, e2]; exact ha.dsize) (by rw [e3]; exact ha.psize)
    (by rw [e3]; exact ha.prsize) (by rw [e2]; exact ho) (by
      rw [hdl, e2]
      have := hc.hk
      by_cases hsy : c.sys = true
      · rw [if_pos hsy]; exact fun h => hn ⟨hsy, h⟩
      · rw [if_neg hsy]; omega) (by rw [hdl, hpl, e2]; omega) (len := c.pickedLen datas pars) (j := j)
    (by rw [e2, e4]; exact fun i => rfl) (by rw [e1, e2]; exact hj) (by rw [e1]; exact h)
  rw [e2] at this
  exact this

/-- C64, what decoding does with streams of any lengths and contents, and any properties, when enough of them are there: with `L` the length of the last, of the
first `k` available fragments, of those that have the fewest full packets, it reports success, appends `L` bytes to each wanted stream and leaves the object fit
for use.  These bytes are the first `L` of words that are interpolated from the symbols of the fragments, where what a fragment lacks counts as zeros. -/
theorem C64_decode_value (hc : c.Ok) : ∃ (p n : Nat) (_ : Fact p.Prime) (g : ZMod p), p = 2 ^ (8 * c.w) + 1 ∧ c.k + c.m ≤ n ∧ IsPrimitiveRoot g n ∧
    (∀ {data frags : Array (List Nat)} {fprops : Array Properties} {T : Nat}, c.Data data T → c.Encoded data frags fprops →
      ∀ t, t < T → ∃ P : (ZMod p)[X], P.degree < c.k ∧
        (if c.sys then ∀ i, i < c.k → P.eval (g ^ i) = word c.w (gt data i) t else ∀ i, i < c.k → P.coeff i = word c.w (gt data i) t) ∧
        ∀ f, f < c.nOut → P.eval (g ^ (if c.sys then c.k + f else f)) = restored c.w (gt frags f) (gt fprops f) t) ∧
    ∀ {pkt : Nat} {R : RsFntObj} {C : CtxB} {H : Heap}, 0 < pkt → c.Reachable pkt R C H →
      ∀ {datas pars outs : Array (Option (List Nat))} {props : Array Properties}, c.AnyLengths datas pars props → outs.size = c.k →
      ¬ (c.sys = true ∧ avail datas = c.k) → c.k ≤ (if c.sys then avail datas else 0) + avail pars →
      ∀ {j : Nat}, LastShort (pkt * c.w) c.k (c.pickedLen datas pars) j →
      ∀ (mem : Nat → Nat) (junk : Nat → Nat → Nat), ∃ o H', ∃ full : Nat → List Nat,
        (R.fecV c.b).decode_streams_vertical datas pars props outs mem junk H = .ok (true, o, H') ∧ c.Reachable pkt R C H' ∧ o.size = c.k ∧
        ∀ i, i < c.k → gt o i = (gt outs i).map (fun s => s ++ (full i).take (c.pickedLen datas pars j)) ∧
          (full i).length = wholePkts (pkt * c.w) (c.pickedLen datas pars j) ∧
          ∀ t, (t + 1) * c.w ≤ wholePkts (pkt * c.w) (c.pickedLen datas pars j) →
            Interpolated c g (picked c.k (c.fragments datas pars)) (fun j => c.seen (c.fragments datas pars) props j t) i (word c.w (full i) t) := by
  obtain ⟨p, n, hP, g, hp, hnl, hroot, hcw, h⟩ := C57_streams_value hc
  refine ⟨p, n, hP, g, hp, hnl, hroot, hcw, ?_⟩
  intro pkt R C H hpkt hr datas pars outs props ha ho hn hen j hj mem junk
  have hw0 : 0 < c.w := by rcases hc.hw with h | h <;> omega
  set L := c.pickedLen datas pars j with hL
  have hA := fitAll_any ha ((L + pkt * c.w - 1) / (pkt * c.w) * pkt)
  obtain ⟨o, H', full, e, q⟩ := h hpkt hr hA ho (by rw [fitAll_avail]; exact hn) (by rw [fitAll_avail, fitAll_avail]; exact hen) mem junk
  have hrr := hr.decodeAny hA e
  rw [← wholePkts_words] at e
  obtain ⟨o', e', hcut⟩ := decode_fit hc hpkt hr ha ho hn hen hj e
  refine ⟨o', H', full, e', hrr, by rw [hcut.size', ho], fun i hi => ?_⟩
  obtain ⟨q1, q2, q3⟩ := q i hi
  rw [← wholePkts_words] at q2
  refine ⟨?_, q2, fun t ht => ?_⟩
  · cases hoi : gt outs i with
    | none => rw [(hcut.none i hoi).2]; rfl
    | some s =>
      rw [hcut.some i s hi hoi, q1, hoi]
      simp only [Option.map_some]
      rw [List.take_append, List.take_of_length_le (by omega), Nat.add_sub_cancel_left]
  · have ht' : t < (L + pkt * c.w - 1) / (pkt * c.w) * pkt := by
      rw [wholePkts_words] at ht
      exact Nat.le_of_mul_le_mul_right ht hw0
    have := q3 t ht'
    rw [← wholePkts_words, fitAll_fragments, fitAll_picked] at this
    simpa only [fitAll_seen _ _ _ ht] using this

/-- C64, what is there is recovered: at every location `t` of the `L` bytes where the first `k` available fragments have the symbols of an encoding of `data`, the
decoded words are those of `data`, whatever the lengths of the fragments.
Missing: the other words are decoded too, from zeros in place of what is missing, and bytes beyond `L` are left out; both is not reported
(`C64_truncation_undetected`). -/
theorem C64_recover_partial (hc : c.Ok) {data frags : Array (List Nat)} {fprops : Array Properties} {T : Nat} (hd : c.Data data T)
    (he : c.Encoded data frags fprops) {pkt : Nat} (hpkt : 0 < pkt) {R : RsFntObj} {C : CtxB} {H : Heap} (hr : c.Reachable pkt R C H)
    {datas pars outs : Array (Option (List Nat))} {props : Array Properties} (ha : c.AnyLengths datas pars props) (ho : outs.size = c.k)
    (hn : ¬ (c.sys = true ∧ avail datas = c.k)) (hen : c.k ≤ (if c.sys then avail datas else 0) + avail pars)
    {j : Nat} (hj : LastShort (pkt * c.w) c.k (c.pickedLen datas pars) j) (mem : Nat → Nat) (junk : Nat → Nat → Nat) :
    ∃ o H', ∃ out : Nat → List Nat, (R.fecV c.b).decode_streams_vertical datas pars props outs mem junk H = .ok (true, o, H') ∧
      (∀ i, i < c.k → gt o i = (gt outs i).map (fun s => s ++ out i) ∧ (out i).length = c.pickedLen datas pars j) ∧
      ∀ t, t < T → (t + 1) * c.w ≤ c.pickedLen datas pars j → (∀ j ∈ picked c.k (c.fragments datas pars), c.seen (c.fragments datas pars) props j t =
          c.seen (c.fragments (data.map some) (frags.map some)) fprops j t) →
        ∀ i, i < c.k → word c.w (out i) t = word c.w (gt data i) t := by
  obtain ⟨p, n, hP, g, hp, hnl, hroot, hcw, h⟩ := C64_decode_value hc
  have hw0 : 0 < c.w := by rcases hc.hw with h | h <;> omega
  have hle := wholePkts_le (Nat.mul_pos hpkt hw0) (c.pickedLen datas pars j)
  obtain ⟨o, H', full, e, _, _, q⟩ := h hpkt hr ha ho hn hen hj mem junk
  refine ⟨o, H', fun i => (full i).take (c.pickedLen datas pars j), e, fun i hi => ⟨(q i hi).1, ?_⟩, fun t ht htL hs i hi => ?_⟩
  · rw [List.length_take, (q i hi).2.1]; omega
  · rw [word_take _ htL]
    obtain ⟨P, P1, P2, P3⟩ := hcw hd he t ht
    refine ((q i hi).2.2 t (by omega)).recovers hc hp hd he P1 P2 P3 (fun j hj => ?_) hs hi
    have := picked_lt hj
    unfold FntCode.fragments at this
    by_cases hsy : c.sys = true
    · rw [if_pos hsy, Array.size_append, ha.dsize hsy, ha.psize] at this; rw [if_pos hsy]; exact this
    · rw [if_neg hsy, ha.psize] at this; rw [if_neg hsy]; exact this

theorem lengths_any {datas pars : Array (Option (List Nat))} {props : Array Properties} (ha : c.AnyLengths datas pars props) :
    (∀ j ∈ picked c.k (c.fragments datas pars), j < if c.sys then c.k + c.nOut else c.nOut) ∧
    ∀ j s, gt (c.fragments datas pars) j = some s → ∀ x ∈ s, x < 256 := by
  refine ⟨fun j hj => ?_, fun j s h => ?_⟩
  · have := picked_lt hj
    unfold FntCode.fragments at this
    by_cases hsy : c.sys = true
    · rw [if_pos hsy, Array.size_append, ha.dsize hsy, ha.psize] at this; rw [if_pos hsy]; exact this
    · rw [if_neg hsy, ha.psize] at this; rw [if_neg hsy]; exact this
  · have hnone : ∀ (a : Array (Option (List Nat))) i s, gt a i = some s → i < a.size := by
      intro a i s hi
      by_contra hge
      have h0 : gt a i = none := by simp [gt, Nat.le_of_not_lt hge]; rfl
      rw [h0] at hi; cases hi
    unfold FntCode.fragments at h
    by_cases hsy : c.sys = true
    · rw [if_pos hsy, gt_append] at h
      by_cases hlt : j < datas.size
      · rw [if_pos hlt] at h
        exact ha.dat hsy j s (by rw [← ha.dsize hsy]; exact hlt) h
      · rw [if_neg hlt] at h
        exact ha.par _ s (by rw [← ha.psize]; exact hnone _ _ _ h) h
    · rw [if_neg hsy] at h
      exact ha.par _ s (by rw [← ha.psize]; exact hnone _ _ _ h) h

theorem fragments_avail (datas pars : Array (Option (List Nat))) :
    avail (c.fragments datas pars) = (if c.sys then avail datas else 0) + avail pars := by
  unfold FntCode.fragments avail
  by_cases hs : c.sys = true
  · rw [if_pos hs, if_pos hs, Array.toList_append, List.countP_append]
  · rw [if_neg hs, if_neg hs, Nat.zero_add]

theorem filter_avail (fr : Array (Option (List Nat))) : ((List.range fr.size).filter (fun i => (gt fr i).isSome)).length = avail fr := by
  have h1 : (present (fr.map Option.isSome) fr.size).length = avail fr := present_eq_avail fr rfl
  rw [← h1]
  unfold present
  congr 1
  refine List.filter_congr fun i hi => ?_
  rw [gt_map (List.mem_range.mp hi)]

theorem picked_length {datas pars : Array (Option (List Nat))} {props : Array Properties} (_ : c.AnyLengths datas pars props)
    (hen : c.k ≤ (if c.sys then avail datas else 0) + avail pars) : (picked c.k (c.fragments datas pars)).length = c.k := by
  unfold picked
  rw [List.length_take, filter_avail, fragments_avail]
  omega

/-- with fewer than `k` data streams available, the last of the first `k` available fragments is not a data stream -/
theorem picked_last (hk : 0 < c.k) {datas pars : Array (Option (List Nat))} {props : Array Properties} (ha : c.AnyLengths datas pars props) (hs : c.sys = true)
    (hn : avail datas < c.k) (hen : c.k ≤ avail datas + avail pars) : c.k ≤ gt (picked c.k (c.fragments datas pars)).toArray (c.k - 1) := by
  have hl := picked_length ha (by rw [if_pos hs]; exact hen)
  have hsz : (c.fragments datas pars).size = c.k + pars.size := by
    unfold FntCode.fragments; rw [if_pos hs, Array.size_append, ha.dsize hs]
  have hfl : ((List.range c.k).filter (fun i => (gt (c.fragments datas pars) i).isSome)).length = avail datas := by
    rw [← filter_avail, ha.dsize hs]
    congr 1
    refine List.filter_congr fun i hi => ?_
    unfold FntCode.fragments
    rw [if_pos hs, gt_append, if_pos (by rw [ha.dsize hs]; exact List.mem_range.mp hi)]
  have hlt : c.k - 1 < (picked c.k (c.fragments datas pars)).length := by omega
  have e : gt (picked c.k (c.fragments datas pars)).toArray (c.k - 1) = (picked c.k (c.fragments datas pars))[c.k - 1] := by simp [gt, hlt]
  have e2 : (picked c.k (c.fragments datas pars))[c.k - 1] =
      ((List.range (c.fragments datas pars).size).filter (fun i => (gt (c.fragments datas pars) i).isSome))[c.k - 1]'(by
        unfold picked at hlt; exact Nat.lt_of_lt_of_le hlt (List.length_take_le' _ _)) := List.getElem_take
  rw [e, e2]
  have key : ∀ (l : List Nat), l = (List.range (c.fragments datas pars).size).filter (fun i => (gt (c.fragments datas pars) i).isSome) → ∀ h : c.k - 1 < l.length,
      c.k ≤ l[c.k - 1] := by
    intro l hle h
    rw [hsz, List.range_add, List.filter_append] at hle
    subst hle
    rw [List.getElem_append_right (by omega)]
    have hm := List.getElem_mem (l := (List.map (fun x => c.k + x) (List.range pars.size)).filter (fun i => (gt (c.fragments datas pars) i).isSome))
      (n := c.k - 1 - ((List.range c.k).filter (fun i => (gt (c.fragments datas pars) i).isSome)).length) (by
        rw [List.length_append] at h; omega)
    obtain ⟨x, -, hx⟩ := List.mem_map.mp (List.mem_filter.mp hm).1
    omega
  exact key _ rfl _

/-- C64, wrong data: if one of the first `k` available fragments, because its end is missing or for another reason, has at location `t` a symbol that is not that of the
encoding of `data`, decoding reports success nevertheless; if the words of `data` at `t` are not zero, at least one of the words decoded at `t` is wrong. -/
theorem C64_wrong_data (hc : c.Ok) {data frags : Array (List Nat)} {fprops : Array Properties} {T : Nat} (hd : c.Data data T)
    (he : c.Encoded data frags fprops) {pkt : Nat} (hpkt : 0 < pkt) {R : RsFntObj} {C : CtxB} {H : Heap} (hr : c.Reachable pkt R C H)
    {datas pars outs : Array (Option (List Nat))} {props : Array Properties} (ha : c.AnyLengths datas pars props) (ho : outs.size = c.k)
    (hn : ¬ (c.sys = true ∧ avail datas = c.k)) (hen : c.k ≤ (if c.sys then avail datas else 0) + avail pars)
    {l : Nat} (hl : LastShort (pkt * c.w) c.k (c.pickedLen datas pars) l) {t j : Nat} (ht : t < T) (htL : (t + 1) * c.w ≤ c.pickedLen datas pars l)
    (hj : j ∈ picked c.k (c.fragments datas pars))
    (hne : c.seen (c.fragments datas pars) props j t ≠ c.seen (c.fragments (data.map some) (frags.map some)) fprops j t)
    (hnz : ∀ i, i < c.k → word c.w (gt data i) t ≠ 0) (mem : Nat → Nat) (junk : Nat → Nat → Nat) :
    ∃ o H', ∃ out : Nat → List Nat, (R.fecV c.b).decode_streams_vertical datas pars props outs mem junk H = .ok (true, o, H') ∧
      (∀ i, i < c.k → gt o i = (gt outs i).map (fun s => s ++ out i) ∧ (out i).length = c.pickedLen datas pars l) ∧
      ∃ i, i < c.k ∧ word c.w (out i) t ≠ word c.w (gt data i) t := by
  obtain ⟨p, n, hP, g, hp, hnl, hroot, hcw, h⟩ := C64_decode_value hc
  have hw0 : 0 < c.w := by rcases hc.hw with h | h <;> omega
  have hle := wholePkts_le (Nat.mul_pos hpkt hw0) (c.pickedLen datas pars l)
  obtain ⟨o, H', full, e, _, _, q⟩ := h hpkt hr ha ho hn hen hl mem junk
  obtain ⟨P, P1, P2, P3⟩ := hcw hd he t ht
  refine ⟨o, H', fun i => (full i).take (c.pickedLen datas pars l), e, fun i hi => ⟨(q i hi).1, ?_⟩, ?_⟩
  · rw [List.length_take, (q i hi).2.1]; omega
  · obtain ⟨i, hi, hx⟩ := Interpolated.wrong hc hp hnl hroot hd he P1 P2 P3 (y := fun j => c.seen (c.fragments datas pars) props j t)
      (lengths_any ha).1 hj (seen_le (lengths_any ha).2 _ _ _) hne (seen_le (encoded_bytes hc hd he) _ _ _) hnz
      (x := fun i => word c.w (full i) t) (fun i hi => (q i hi).2.2 t (by omega))
    exact ⟨i, hi, by rw [word_take _ htL]; exact hx⟩

/-- the full C64 fails: whatever the code and the fragments, if the last of the first `k` available fragments is empty, decoding reports success and writes nothing -/
theorem C64_truncation_undetected (hc : c.Ok) {pkt : Nat} (hpkt : 0 < pkt) {R : RsFntObj} {C : CtxB} {H : Heap} (hr : c.Reachable pkt R C H)
    {datas pars outs : Array (Option (List Nat))} {props : Array Properties} (ha : c.AnyLengths datas pars props) (ho : outs.size = c.k)
    (hn : ¬ (c.sys = true ∧ avail datas = c.k)) (hen : c.k ≤ (if c.sys then avail datas else 0) + avail pars)
    (hz : c.pickedLen datas pars (c.k - 1) = 0) (mem : Nat → Nat) (junk : Nat → Nat → Nat) :
    ∃ H', (R.fecV c.b).decode_streams_vertical datas pars props outs mem junk H = .ok (true, outs, H') := by
  obtain ⟨p, n, hP, g, hp, hnl, hroot, hcw, h⟩ := C64_decode_value hc
  have hk := hc.hk
  obtain ⟨o, H', full, e, _, hos, q⟩ := h hpkt hr ha ho hn hen (j := c.k - 1) ⟨by omega, fun i _ => by rw [hz]; simp, fun i h1 h2 => by omega⟩ mem junk
  refine ⟨H', ?_⟩
  rw [e]
  congr 2
  rw [Prod.mk.injEq]
  refine ⟨gt_ext (by omega) (fun i hi => ?_), rfl⟩
  rw [(q i (by omega)).1, hz]
  cases gt outs i <;> simp

theorem word_prefix {w t : Nat} {s s' : List Nat} (hp : s <+: s') (h : (t + 1) * w ≤ s.length) : word w s t = word w s' t := by
  rw [List.prefix_iff_eq_take.mp hp, word_take _ h]

theorem Truncated.any (hc : c.Ok) {data frags : Array (List Nat)} {fprops : Array Properties} {T : Nat} (hd : c.Data data T)
    (he : c.Encoded data frags fprops) {datas pars : Array (Option (List Nat))} {props : Array Properties}
    (hs : c.Truncated data frags fprops datas pars props) : c.AnyLengths datas pars props := by
  have hb := encoded_bytes hc hd he
  obtain ⟨_, _, z1, z2, z3, hu, _⟩ := C36_streams_unique_partial hc hd
  obtain ⟨rfl, rfl⟩ := (hu frags fprops).mp he
  refine ⟨hs.dsize, hs.psize, hs.prsize, fun h i s hi e x hx => hd.bytes i hi x ((hs.dat h i s hi e).subset hx), fun f s hf e x hx => ?_⟩
  refine hb (if c.sys then c.k + f else f) (gt frags f) ?_ x ((hs.par f s hf e).1.subset hx)
  unfold FntCode.fragments
  by_cases hsy : c.sys = true
  · rw [if_pos hsy, if_pos hsy, gt_append, Array.size_map, hd.size, if_neg (by omega), Nat.add_sub_cancel_left, gt_map (by omega)]
  · rw [if_neg hsy, if_neg hsy, gt_map (by omega)]

/-- C64 for fragments of which the ends may be missing: the words that all of the first `k` available fragments have are recovered. -/
theorem C64_common_prefix_partial (hc : c.Ok) {data frags : Array (List Nat)} {fprops : Array Properties} {T : Nat} (hd : c.Data data T)
    (he : c.Encoded data frags fprops) {pkt : Nat} (hpkt : 0 < pkt) {R : RsFntObj} {C : CtxB} {H : Heap} (hr : c.Reachable pkt R C H)
    {datas pars outs : Array (Option (List Nat))} {props : Array Properties} (hs : c.Truncated data frags fprops datas pars props) (ho : outs.size = c.k)
    (hn : ¬ (c.sys = true ∧ avail datas = c.k)) (hen : c.k ≤ (if c.sys then avail datas else 0) + avail pars)
    (mem : Nat → Nat) (junk : Nat → Nat → Nat) :
    ∃ o H', ∃ out : Nat → List Nat, (R.fecV c.b).decode_streams_vertical datas pars props outs mem junk H = .ok (true, o, H') ∧
      (∀ i, i < c.k → gt o i = (gt outs i).map (fun s => s ++ out i)) ∧
      ∀ t, (∀ i, i < c.k → (t + 1) * c.w ≤ c.pickedLen datas pars i) →
        ∀ i, i < c.k → (t + 1) * c.w ≤ (out i).length ∧ word c.w (out i) t = word c.w (gt data i) t := by
  have ha := Truncated.any hc hd he hs
  obtain ⟨l, hl⟩ := exists_lastShort (pkt * c.w) hc.hk (c.pickedLen datas pars)
  obtain ⟨o, H', out, e, q1, q2⟩ := C64_recover_partial hc hd he hpkt hr ha ho hn hen hl mem junk
  have hw0 : 0 < c.w := by rcases hc.hw with h | h <;> omega
  obtain ⟨_, _, z1, z2, z3, hu, _⟩ := C36_streams_unique_partial hc hd
  obtain ⟨rfl, rfl⟩ := (hu frags fprops).mp he
  refine ⟨o, H', out, e, fun i hi => (q1 i hi).1, fun t ht i hi => ⟨by rw [(q1 i hi).2]; exact ht l hl.lt, ?_⟩⟩
  -- what each of the chosen fragments is
  have hfr : ∀ j ∈ picked c.k (c.fragments datas pars), ∃ s s', gt (c.fragments datas pars) j = some s ∧
      gt (c.fragments (data.map some) (frags.map some)) j = some s' ∧ s <+: s' ∧ (t + 1) * c.w ≤ s.length ∧ s'.length = T * c.w ∧
      (c.sys = false ∨ c.k ≤ j → gt props (if c.sys then j - c.k else j) = gt fprops (if c.sys then j - c.k else j)) := by
    intro j hj
    have hlt := (lengths_any ha).1 j hj
    obtain ⟨x, hx, hxe⟩ := mem_gt hj
    have hxk : x < c.k := by
      have h1 : (picked c.k (c.fragments datas pars)).length ≤ c.k := by unfold picked; exact List.length_take_le _ _
      omega
    have hpl := ht x hxk
    unfold FntCode.pickedLen at hpl
    rw [hxe] at hpl
    have hsome : (gt (c.fragments datas pars) j).isSome = true := (List.mem_filter.mp (List.mem_of_mem_take hj)).2
    obtain ⟨s, hse⟩ := Option.isSome_iff_exists.mp hsome
    rw [hse] at hpl
    refine ⟨s, ?_⟩
    unfold FntCode.fragments at hse ⊢
    by_cases hsy : c.sys = true
    · simp only [hsy, if_true] at hse hlt ⊢
      rw [gt_append, hs.dsize hsy] at hse
      rw [gt_append, hs.dsize hsy, gt_append, Array.size_map, hd.size]
      by_cases hjk : j < c.k
      · rw [if_pos hjk] at hse
        rw [if_pos hjk, if_pos hjk, gt_map (by rw [hd.size]; exact hjk)]
        exact ⟨_, hse, rfl, hs.dat hsy j s hjk hse, hpl, hd.len j hjk, fun h => by rcases h with h | h <;> [cases h; omega]⟩
      · rw [if_neg hjk] at hse
        rw [if_neg hjk, if_neg hjk, gt_map (by omega)]
        obtain ⟨h1, h2⟩ := hs.par (j - c.k) s (by omega) hse
        exact ⟨_, hse, rfl, h1, hpl, z3 _ (by omega), fun _ => h2⟩
    · simp only [hsy, if_false, Bool.false_eq_true] at hse hlt ⊢
      rw [gt_map (by omega)]
      obtain ⟨h1, h2⟩ := hs.par j s (by omega) hse
      exact ⟨_, hse, rfl, h1, hpl, z3 _ (by omega), fun _ => h2⟩
  have htT : t < T := by
    have hne : picked c.k (c.fragments datas pars) ≠ [] := by
      intro h0
      have h1 := picked_length ha hen
      rw [h0] at h1
      exact absurd h1.symm (Nat.ne_of_gt hc.hk)
    obtain ⟨j, hj⟩ := List.exists_mem_of_ne_nil _ hne
    obtain ⟨s, s', _, _, h3, h4, h5, _⟩ := hfr j hj
    have := h3.length_le
    exact Nat.lt_of_succ_le (Nat.le_of_mul_le_mul_right (show (t + 1) * c.w ≤ T * c.w by omega) hw0)
  refine q2 t htT (by exact ht l hl.lt) (fun j hj => ?_) i hi
  obtain ⟨s, s', h1, h2, h3, h4, _, h6⟩ := hfr j hj
  unfold FntCode.seen
  rw [h1, h2, Option.getD_some, Option.getD_some, word_prefix h3 h4]
  by_cases hq : c.sys = false ∨ c.k ≤ j
  · rw [h6 hq]
  · rw [if_neg (fun h => hq h.1), if_neg (fun h => hq h.1)]

/-- C63, the way back: from any `k` of the streams of which `C63_encode_partial` speaks, the data streams being as long as they were and the others as they were
written, decoding yields the words of `data`, cut or completed with zeros to the `L` bytes that were written, whatever the lengths of the streams.
Missing: what is beyond the `L` bytes (`C63_data_lost`), and the last word if `L` is not a multiple of the word size. -/
theorem C63_round_trip_partial (hc : c.Ok) {pkt : Nat} (hpkt : 0 < pkt) {R : RsFntObj} {C : CtxB} {H : Heap} (hr : c.Reachable pkt R C H)
    {data frags : Array (List Nat)} {fprops : Array Properties} (hs : data.size = c.k) (hb : ∀ i, i < c.k → ∀ x ∈ gt data i, x < 256)
    {j L : Nat} (hj : LastShort (pkt * c.w) c.k (fun i => (gt data i).length) j) (hL : L = (gt data j).length)
    (he : c.Encoded (data.map (fit (wholePkts (pkt * c.w) L))) frags fprops)
    {datas pars outs : Array (Option (List Nat))} {props : Array Properties} (hds : c.sys = true → datas.size = c.k) (hps : pars.size = c.nOut)
    (hqs : props.size = c.nOut) (hdat : c.sys = true → ∀ i s, i < c.k → gt datas i = some s → s = gt data i)
    (hpar : ∀ f s, f < c.nOut → gt pars f = some s → s = (gt frags f).take L ∧ gt props f = gt fprops f) (ho : outs.size = c.k)
    (hn : c.sys = true → avail datas < c.k) (hen : c.k ≤ (if c.sys then avail datas else 0) + avail pars) (mem : Nat → Nat) (junk : Nat → Nat → Nat) :
    ∃ o H', ∃ out : Nat → List Nat, (R.fecV c.b).decode_streams_vertical datas pars props outs mem junk H = .ok (true, o, H') ∧
      ∀ i, i < c.k → gt o i = (gt outs i).map (fun s => s ++ out i) ∧ (out i).length = L ∧
        ∀ t, (t + 1) * c.w ≤ L → word c.w (out i) t = word c.w (gt data i) t := by
  have hw0 : 0 < c.w := by rcases hc.hw with h | h <;> omega
  have hk := hc.hk
  have hle := wholePkts_le (Nat.mul_pos hpkt hw0) L
  set T := (L + pkt * c.w - 1) / (pkt * c.w) * pkt with hT
  have hW : wholePkts (pkt * c.w) L = T * c.w := wholePkts_words L
  rw [hW] at he hle
  have hd := fit_data (c := c) hs hb T
  have hby := encoded_bytes hc hd he
  obtain ⟨_, _, z1, z2, z3, hu, _⟩ := C36_streams_unique_partial hc hd
  obtain ⟨rfl, rfl⟩ := (hu frags fprops).mp he
  have ha : c.AnyLengths datas pars props := by
    refine ⟨hds, hps, hqs, fun h i s hi e => by rw [hdat h i s hi e]; exact hb i hi, fun f s hf e x hx => ?_⟩
    rw [(hpar f s hf e).1] at hx
    refine hby (if c.sys then c.k + f else f) (gt frags f) ?_ x (List.mem_of_mem_take hx)
    unfold FntCode.fragments
    by_cases hsy : c.sys = true
    · rw [if_pos hsy, if_pos hsy, gt_append, Array.size_map, hd.size, if_neg (by omega), Nat.add_sub_cancel_left, gt_map (by omega)]
    · rw [if_neg hsy, if_neg hsy, gt_map (by omega)]
  have hpl := picked_length ha hen
  have hmem : ∀ i, i < c.k → gt (picked c.k (c.fragments datas pars)).toArray i ∈ picked c.k (c.fragments datas pars) := fun i hi =>
    have hlt : i < (picked c.k (c.fragments datas pars)).length := by omega
    have e : gt (picked c.k (c.fragments datas pars)).toArray i = (picked c.k (c.fragments datas pars))[i] := by simp [gt, hlt]
    by rw [e]; exact List.getElem_mem hlt
  -- what the chosen fragments are
  have hfr : ∀ x ∈ picked c.k (c.fragments datas pars), ∃ s, gt (c.fragments datas pars) x = some s ∧
      if c.sys = true ∧ x < c.k then s = gt data x else
        (if c.sys then x - c.k else x) < c.nOut ∧ s = (gt frags (if c.sys then x - c.k else x)).take L ∧
          gt props (if c.sys then x - c.k else x) = gt fprops (if c.sys then x - c.k else x) := by
    intro x hx
    have hlt := (lengths_any ha).1 x hx
    have hsome : (gt (c.fragments datas pars) x).isSome = true := (List.mem_filter.mp (List.mem_of_mem_take hx)).2
    obtain ⟨s, hse⟩ := Option.isSome_iff_exists.mp hsome
    refine ⟨s, hse, ?_⟩
    unfold FntCode.fragments at hse
    by_cases hsy : c.sys = true
    · simp only [hsy, if_true, true_and] at hse hlt ⊢
      rw [gt_append, hds hsy] at hse
      by_cases hxk : x < c.k
      · rw [if_pos hxk] at hse ⊢
        exact hdat hsy x s hxk hse
      · rw [if_neg hxk] at hse ⊢
        exact ⟨by omega, hpar _ s (by omega) hse⟩
    · simp only [hsy, if_false, Bool.false_eq_true, false_and] at hse hlt ⊢
      exact ⟨hlt, hpar _ s hlt hse⟩
  have hlen : ∀ i, i < c.k → c.pickedLen datas pars i = (if c.sys = true ∧ gt (picked c.k (c.fragments datas pars)).toArray i < c.k then
      (gt data (gt (picked c.k (c.fragments datas pars)).toArray i)).length else L) := by
    intro i hi
    obtain ⟨s, h1, h2⟩ := hfr _ (hmem i hi)
    unfold FntCode.pickedLen
    rw [h1, Option.getD_some]
    split at h2
    · rename_i h; rw [if_pos h, h2]
    · rename_i h
      rw [if_neg h, h2.2.1, List.length_take, z3 _ h2.1]; omega
  have hlast : c.pickedLen datas pars (c.k - 1) = L := by
    rw [hlen _ (by omega), if_neg]
    rintro ⟨hsy, h⟩
    rw [if_pos hsy] at hen
    exact absurd (picked_last hk ha hsy (hn hsy) hen) (by omega)
  have hshort : LastShort (pkt * c.w) c.k (c.pickedLen datas pars) (c.k - 1) := by
    refine ⟨by omega, fun i hi => ?_, fun i h1 h2 => by omega⟩
    rw [hlast, hlen i hi]
    split
    · rename_i h; rw [hL]; exact hj.fewest _ h.2
    · exact le_refl _
  obtain ⟨o, H', out, e, q1, q2⟩ := C64_recover_partial hc hd he hpkt hr ha ho (fun h => by have := hn h.1; omega) hen hshort mem junk
  rw [hlast] at q1 q2
  refine ⟨o, H', out, e, fun i hi => ⟨(q1 i hi).1, (q1 i hi).2, fun t ht => ?_⟩⟩
  have htw : (t + 1) * c.w ≤ T * c.w := by omega
  have htT : t < T := Nat.lt_of_succ_le (Nat.le_of_mul_le_mul_right htw hw0)
  rw [q2 t htT ht (fun x hx => ?_) i hi, gt_map (by omega), word_fit _ htw]
  obtain ⟨s, h1, h2⟩ := hfr x hx
  unfold FntCode.seen
  rw [h1, Option.getD_some]
  have hfe : gt (c.fragments ((data.map (fit (T * c.w))).map some) (frags.map some)) x =
      if c.sys = true ∧ x < c.k then some (fit (T * c.w) (gt data x)) else some (gt frags (if c.sys then x - c.k else x)) := by
    have hlt := (lengths_any ha).1 x hx
    unfold FntCode.fragments
    by_cases hsy : c.sys = true
    · simp only [hsy, if_true, true_and] at hlt ⊢
      rw [gt_append, Array.size_map, hd.size]
      by_cases hxk : x < c.k
      · rw [if_pos hxk, if_pos hxk, gt_map (by rw [hd.size]; exact hxk), gt_map (by omega)]
      · rw [if_neg hxk, if_neg hxk, gt_map (by omega)]
    · simp only [hsy, if_false, Bool.false_eq_true, false_and] at hlt ⊢
      rw [gt_map (by omega)]
  rw [hfe]
  split at h2
  · rename_i h
    rw [if_pos h, Option.getD_some, word_fit _ htw, h2, if_neg (fun h' => by rcases h'.1 with h3 | h3 <;> [exact absurd h.1 (by rw [h3]; decide); omega]),
      if_neg (fun h' => by rcases h'.1 with h3 | h3 <;> [exact absurd h.1 (by rw [h3]; decide); omega])]
  · rename_i h
    rw [if_neg h, Option.getD_some, h2.2.1, word_take _ ht, h2.2.2]

/-! ## The hypotheses can be met -/

/-- data streams of different lengths: the second is the only one without a full packet of 8 bytes, its 3 bytes decide -/
def data2 : Array (List Nat) := #[[1, 2, 3, 4, 5, 6, 7, 8, 9], [5, 255, 7], [9, 10, 11, 12, 13, 14, 15, 16, 17, 18]]

example : data2.size = code1.k ∧ (∀ i, i < code1.k → ∀ x ∈ gt data2 i, x < 256) ∧ LastShort (8 * code1.w) code1.k (fun i => (gt data2 i).length) 1 :=
  ⟨rfl, by decide, ⟨by decide, by decide, fun i h1 h2 => by
    have : i = 2 := by simp [code1] at h2; omega
    subst this; decide⟩⟩

example : 2 ≤ code1.k := by decide

/-- what survives of `data2`: its first stream, all of it, and the two other streams as written -/
example : ∃ frags fprops, code1.Encoded (data2.map (fit (wholePkts (8 * code1.w) 3))) frags fprops ∧
    (∀ i s, i < code1.k → gt #[some (gt data2 0), none, none] i = some s → s = gt data2 i) ∧
    (∀ f s, f < code1.nOut → gt #[some ((gt frags 0).take 3), some ((gt frags 1).take 3)] f = some s →
      s = (gt frags f).take 3 ∧ gt fprops f = gt fprops f) ∧
    avail #[some (gt data2 0), none, none] < code1.k ∧
    code1.k ≤ avail #[some (gt data2 0), none, none] + avail #[some ((gt frags 0).take 3), some ((gt frags 1).take 3)] := by
  obtain ⟨frags, fprops, z1, z2, z3, hu, _⟩ := C36_streams_unique_partial code1_ok (fit_data (c := code1) (data := data2) rfl (by decide) 8)
  have he : code1.Encoded (data2.map (fit (wholePkts (8 * code1.w) 3))) frags fprops := (hu _ _).mpr ⟨rfl, rfl⟩
  refine ⟨frags, fprops, he, ?_, ?_, by decide, ?_⟩
  · intro i s hi h
    have : i = 0 ∨ i = 1 ∨ i = 2 := by simp [code1] at hi; omega
    rcases this with rfl | rfl | rfl <;> simp [gt] at h <;> simp [gt, h]
  · intro f s hf h
    have : f = 0 ∨ f = 1 := by simp [code1, FntCode.nOut] at hf; omega
    rcases this with rfl | rfl <;> simp [gt] at h <;> simp [gt, ← h]
  · simp [avail, code1]

/-- truncated fragments of `data1`: three bytes of the first data stream, two and four of the others; and one that is empty and picked last -/
example : ∃ frags fprops, code1.Encoded data1 frags fprops ∧
    code1.Truncated data1 frags fprops #[some [1, 2, 3], none, none] #[some ((gt frags 0).take 2), some (gt frags 1)] fprops ∧
    code1.Truncated data1 frags fprops #[some [1, 2, 3], none, none] #[some ((gt frags 0).take 2), some []] fprops ∧
    ¬ (code1.sys = true ∧ avail #[some [1, 2, 3], none, none] = code1.k) ∧
    code1.k ≤ avail #[some [1, 2, 3], none, none] + avail #[some ((gt frags 0).take 2), some (gt frags 1)] ∧
    code1.k ≤ avail #[some [1, 2, 3], none, none] + avail #[some ((gt frags 0).take 2), some []] ∧
    code1.pickedLen #[some [1, 2, 3], none, none] #[some ((gt frags 0).take 2), some []] (code1.k - 1) = 0 := by
  obtain ⟨frags, fprops, z1, z2, z3, hu, _⟩ := C36_streams_unique_partial code1_ok data1_ok
  have hT : ∀ x, x <+: gt frags 1 →
      code1.Truncated data1 frags fprops #[some [1, 2, 3], none, none] #[some ((gt frags 0).take 2), some x] fprops := by
    intro x hx
    refine ⟨fun _ => rfl, rfl, z2, fun _ i s hi h => ?_, fun f s hf h => ?_⟩
    · have : i = 0 ∨ i = 1 ∨ i = 2 := by simp [code1] at hi; omega
      rcases this with rfl | rfl | rfl <;> simp [gt] at h
      subst h; exact ⟨[4], rfl⟩
    · have : f = 0 ∨ f = 1 := by simp [code1, FntCode.nOut] at hf; omega
      rcases this with rfl | rfl
      · obtain rfl := Option.some.inj h; exact ⟨List.take_prefix _ _, rfl⟩
      · obtain rfl := Option.some.inj h; exact ⟨hx, rfl⟩
  refine ⟨frags, fprops, (hu _ _).mpr ⟨rfl, rfl⟩, hT _ (List.prefix_refl _), hT _ List.nil_prefix, by decide, by simp [avail, code1], by simp [avail, code1], ?_⟩
  unfold FntCode.pickedLen FntCode.fragments
  simp only [code1, if_true]
  rfl

/-- data stream 0, cut to one byte, is used, its zeros are not the symbols of the encoding, and the last stream, with all its 4 bytes, decides (`C64_wrong_data`) -/
example (frags : Array (List Nat)) (fprops : Array Properties) :
    0 ∈ picked code1.k (code1.fragments #[some [1], none, some [9, 10]] #[none, some [1, 1, 1, 1]]) ∧
    LastShort (8 * code1.w) code1.k (code1.pickedLen #[some [1], none, some [9, 10]] #[none, some [1, 1, 1, 1]]) 2 ∧
    (1 + 1) * code1.w ≤ code1.pickedLen #[some [1], none, some [9, 10]] #[none, some [1, 1, 1, 1]] 2 ∧
    code1.seen (code1.fragments #[some [1], none, some [9, 10]] #[none, some [1, 1, 1, 1]]) fprops 0 1 ≠
      code1.seen (code1.fragments (data1.map some) (frags.map some)) fprops 0 1 ∧ ∀ i, i < code1.k → word code1.w (gt data1 i) 1 ≠ 0 := by
  refine ⟨by decide +kernel, ⟨by decide, by decide +kernel, fun i h1 h2 => by simp [code1] at h2; omega⟩, by decide +kernel, ?_, by decide +kernel⟩
  unfold FntCode.seen
  rw [if_neg (by simp [code1]), if_neg (by simp [code1])]
  unfold FntCode.fragments
  simp only [code1, if_true]
  rw [gt_append, gt_append, if_pos (by simp), if_pos (by simp [data1])]
  decide +kernel

end Quad.Props
