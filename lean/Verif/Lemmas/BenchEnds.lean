import Verif.Lemmas.Bench
import Verif.Lemmas.FecAnyWords

/-!
# Runs of the benchmark word by word, with chunks that are not whole words

The last bytes of the chunks, less than a word, are neither coded nor decoded.
-/

namespace Quad

/-- decoding word by word of fragments that are followed by less than a word of anything -/
theorem Fec.decode_ends {Γ : Type} {E : Fec Γ} {st : Array Nat → Nat → Nat} {mk : Array Nat → Nat → Option Nat} {A : Array Nat → Prop}
    (hE : E.HSpec st mk A) (hA : ∀ ids, A ids) {D : Nat → List Nat} {T : Nat}
    {datas pars outs : Array (Option (List Nat))} {props : Array Properties} (mem : Nat → Nat)
    (hD : ∀ i, i < E.base.n_data → ∀ x ∈ D i, x < 256) (hT : ∀ i, i < E.base.n_data → T * E.base.word_size ≤ (D i).length)
    (h1 : E.base.sys = true → datas.size = E.base.n_data) (h2 : pars.size = E.base.n_outputs)
    (h3 : props.size = E.base.n_outputs) (h4 : outs.size = E.base.n_data)
    (hdat : E.base.sys = true → ∀ i s, gt datas i = some s → s = D i)
    (hpar : ∀ f s, f < E.base.n_outputs → gt pars f = some s →
      (∃ x, x.length < E.base.word_size ∧ s = flat E.base.word_size (fun t => st (rowAt E.base.word_size E.base.n_data D t) f) T ++ x) ∧
      gt props f = ⟨marksOf (fun t => mk (rowAt E.base.word_size E.base.n_data D t) f) T⟩)
    (hall : (E.base.dataList (datas.map Option.isSome)).length ≠ E.base.n_data)
    (hfew : ¬ (E.base.dataList (datas.map Option.isSome)).length +
          (present (pars.map Option.isSome) E.base.n_outputs).length < E.base.n_data) :
    ∃ outs', E.decode_streams_horizontal datas pars props outs mem = .ok (true, outs') ∧ outs'.size = E.base.n_data ∧
      ∀ i, i < E.base.n_data → gt outs' i = (gt outs i).map (fun s => s ++ (D i).take (T * E.base.word_size)) := by
  have hC := FecV.chosen_spec E.base hall hfew
  change FecV.Chosen E.base _ _ (E.base.idList (datas.map Option.isSome) (pars.map Option.isSome)).toArray _ _ at hC
  set k := E.base.n_data with hkd
  set w := E.base.word_size with hwd
  set nd := (E.base.dataList (datas.map Option.isSome)).length with hnd
  set ids := (E.base.idList (datas.map Option.isSome) (pars.map Option.isSome)).toArray with hids
  set apar := (E.base.parList (datas.map Option.isSome) (pars.map Option.isSome)).toArray with hap
  -- the streams that are read
  have hS : ∀ i, i < k → (i < nd ∧ E.base.sys = true ∧ gt ids i < k ∧ fragStream E.base.sys k datas pars (gt ids i) = D (gt ids i)) ∨
      ∃ f x, f < E.base.n_outputs ∧ gt ids i = (if E.base.sys then k + f else f) ∧ x.length < w ∧
        fragStream E.base.sys k datas pars (gt ids i) = flat w (fun t => st (rowAt w k D t) f) T ++ x := by
    intro i hi
    rcases Nat.lt_or_ge i nd with hlt | hge
    · obtain ⟨q1, q2, q3⟩ := hC.data i hlt
      obtain ⟨_, s, hs⟩ := Fec.isSome_mask q3
      refine .inl ⟨hlt, q1, q2, ?_⟩
      unfold fragStream
      rw [if_pos q1, if_pos q2, hs, hdat q1 _ _ hs]
      rfl
    · obtain ⟨q1, q2, q3⟩ := hC.par (i - nd) (by omega)
      rw [show nd + (i - nd) = i by omega] at q3
      obtain ⟨_, s, hs⟩ := Fec.isSome_mask q2
      obtain ⟨⟨x, hx, he⟩, _⟩ := hpar _ _ q1 hs
      refine .inr ⟨_, x, q1, q3, hx, ?_⟩
      unfold fragStream
      rw [q3]
      by_cases hs' : E.base.sys = true
      · simp only [hs', if_true]
        rw [if_neg (by omega), Nat.add_sub_cancel_left, hs, Option.getD_some, he]
      · simp only [hs', Bool.false_eq_true, if_false]
        rw [hs, Option.getD_some, he]
  obtain ⟨_, res, e, sr, hr⟩ := Fec.decode_streams_horizontal_any (E := E) hE.w hE.kpos hE.cl (T := T) (rows := rowAt w k D) (datas := datas)
    (pars := pars) (outs := outs) (props := props) mem h1 h2 h3 h4 hall hfew
    (by
      intro i hi
      rcases hS i hi with ⟨_, _, q2, q3⟩ | ⟨f, x, _, _, _, q3⟩
      · rw [q3]; exact hT _ q2
      · rw [q3, List.length_append, flat_length]; exact Nat.le_add_right _ _)
    (by
      have hlt := hC.lt
      refine ⟨nd, hlt, ?_⟩
      rcases hS nd hlt with ⟨q, _⟩ | ⟨f, x, _, _, q, q3⟩
      · omega
      · rw [q3, List.length_append, flat_length, Nat.add_mul, Nat.one_mul]; exact Nat.add_lt_add_left q _)
    (by
      intro hv
      obtain ⟨Good, C, p', e1, g0, hd⟩ := hE.dec (rows := rowAt w k D) (T := T) (ids := ids) (props := props) mem
        (fun t _ => rowAt_isRow hD t) hv (hA _) h3 (by
          intro i f hi hf he
          rcases Nat.lt_or_ge i nd with hlt | hge
          · obtain ⟨q1, q2, _⟩ := hC.data i hlt
            rw [if_pos q1] at he
            omega
          · obtain ⟨q1, q2, q3⟩ := hC.par (i - nd) (by omega)
            rw [show nd + (i - nd) = i by omega] at q3
            have hff : gt apar (i - nd) = f := by
              rw [he] at q3
              by_cases hs' : E.base.sys = true
              · rw [if_pos hs', if_pos hs'] at q3; omega
              · rw [if_neg hs', if_neg hs'] at q3; omega
            rw [hff] at q2
            obtain ⟨_, s, hs⟩ := Fec.isSome_mask q2
            exact (hpar f s hf hs).2)
      refine ⟨Good, C, p', e1, g0, fun {t C out words} a1 a2 a3 a4 a5 => hd a1 a2 a3 a4 (fun i hi => ?_)⟩
      rw [a5 i hi]
      unfold fragVal
      rcases hS i hi with ⟨_, q1, q2, q3⟩ | ⟨f, x, hf, q1, _, q3⟩
      · rw [q3, if_pos q1, if_pos q2, rowAt_gt q2]
      · have hwf : wordAt w (flat w (fun t => st (rowAt w k D t) f) T ++ x) t = st (rowAt w k D t) f := by
          rw [← Driver.wordAt_take (w := w) a1, List.take_left' (flat_length _ _ _), wordAt_flat (f := fun t => st (rowAt w k D t) f) a1 (hE.lt (rowAt_isRow hD t) hf)]
        rw [q3, hwf, q1]
        by_cases hs' : E.base.sys = true
        · simp only [hs', if_true]
          rw [if_neg (by omega), Nat.add_sub_cancel_left]
        · simp only [hs', Bool.false_eq_true, if_false])
  refine ⟨res, e, sr, fun i hi => ?_⟩
  rw [hr i hi]
  congr 1
  funext s
  rw [flat_congr (g := wordAt w (D i)) (fun t _ => rowAt_gt hi), flat_wordAt (hT i hi) (hD i hi)]

namespace Bench
open Quad.Spec Quad.Driver

theorem storeAll_length {old : List (Array Nat)} {o : Array (Option (List Nat))} (h : o.size = old.length) : (storeAll old o).length = old.length := by
  simp [storeAll, h]

theorem storeAll_at {old : List (Array Nat)} {o : Array (Option (List Nat))} (h : o.size = old.length) {i : Nat} (hi : i < old.length) {s : List Nat}
    (hs : gt o i = some s) (hl : s.length ≤ old[i].size) :
    (storeAll old o)[i]'(by rw [storeAll_length h]; exact hi) = (s ++ old[i].toList.drop s.length).toArray := by
  rw [gt_eq (by omega)] at hs
  have hs' : o.toList[i]'(by simpa [h] using hi) = some s := by simpa using hs
  simp only [storeAll, List.getElem_zipWith, hs', Option.getD_some]
  unfold store
  rw [List.take_of_length_le hl]

theorem mem_storeAll {old : List (Array Nat)} {o : Array (Option (List Nat))} {P : Array Nat → Prop} (h : o.size = old.length)
    (hP : ∀ i (hi : i < old.length), P ((storeAll old o)[i]'(by rw [storeAll_length h]; exact hi))) : ∀ b ∈ storeAll old o, P b := by
  intro b hb
  obtain ⟨i, hi, rfl⟩ := List.mem_iff_getElem.1 hb
  exact hP i (by rw [storeAll_length h] at hi; exact hi)

section
variable {Γ : Type} {E : Fec Γ} {st : Array Nat → Nat → Nat} {mk : Array Nat → Nat → Option Nat} {A : Array Nat → Prop}
  {mem mem' : Nat → Nat → Nat} {T r m : Nat} {ds : List (Array Nat)}

/-- the chunks hold correct data, and memory for decoded chunks holds bytes -/
structure SoundE (E : Fec Γ) (mem mem' : Nat → Nat → Nat) (size : Nat) (ds : List (Array Nat)) (s : State (Coder.horizontal E mem mem').σ) : Prop
    extends Sound (F := Coder.horizontal E mem mem') (fun _ => True) size ds s where
  rb : ∀ b ∈ s.r, Chunk size b

/-- moreover the coded chunks begin with the words coded -/
structure CodedE (E : Fec Γ) (st : Array Nat → Nat → Nat) (mk : Array Nat → Nat → Option Nat) (mem mem' : Nat → Nat → Nat) (T r : Nat)
    (ds : List (Array Nat)) (s : State (Coder.horizontal E mem mem').σ) : Prop
    extends SoundE E mem mem' (T * E.base.word_size + r) ds s where
  c : ∀ f (hf : f < s.c.length), ∃ x, x.length = r ∧
    s.c[f].toList = flat E.base.word_size (fun t => st (rowAt E.base.word_size E.base.n_data (gt (dataOf ds)) t) f) T ++ x
  props : ∀ f, f < E.base.n_outputs → gt s.props f = ⟨marksOf (fun t => mk (rowAt E.base.word_size E.base.n_data (gt (dataOf ds)) t) f) T⟩

theorem SoundE.len {s : State (Coder.horizontal E mem mem').σ} {size : Nat} (h : SoundE E mem mem' size ds s) : ds.length = E.base.n_data := by
  rw [← h.d]; exact h.room.d.1

theorem SoundE.bytes {s : State (Coder.horizontal E mem mem').σ} {size : Nat} (h : SoundE E mem mem' size ds s) {i : Nat} (hi : i < E.base.n_data) :
    ∀ x ∈ gt (dataOf ds) i, x < 256 := by
  intro x hx
  rw [dataOf_at (by rw [h.len]; exact hi)] at hx
  have hb := (h.good _ (List.getElem_mem (by rw [h.len]; exact hi))).1
  obtain ⟨j, hj, rfl⟩ := List.mem_iff_getElem.1 hx
  have := hb.bytes j (by rw [← hb.size]; simpa using hj)
  rw [gt_eq (by simpa using hj)] at this
  simpa using this

theorem SoundE.dlen {s : State (Coder.horizontal E mem mem').σ} {size : Nat} (h : SoundE E mem mem' size ds s) {i : Nat} (hi : i < E.base.n_data) :
    (gt (dataOf ds) i).length = size := by
  rw [dataOf_at (by rw [h.len]; exact hi), Array.length_toList, (h.good _ (List.getElem_mem _)).1.size]

theorem encodeE_spec (H : E.HSpec st mk A) (hr : r < E.base.word_size) {s : State (Coder.horizontal E mem mem').σ}
    (h : SoundE E mem mem' (T * E.base.word_size + r) ds s) :
    ∃ s', encode (Coder.horizontal E mem mem') s = .ok s' ∧ CodedE E st mk mem mem' T r ds s' ∧ s'.r = s.r := by
  have hk := H.kpos
  obtain ⟨o, p, e, s1, s2, q⟩ := Fec.encode_streams_horizontal_spec H (data := dataOf ds) (outs := Array.replicate E.base.n_outputs [])
    (props := s.props) (mem s.fec) (T := T) (by simpa using h.len) (by simp) h.room.props (fun i hi => h.bytes hi)
    ⟨fun i hi => by rw [h.dlen hi]; exact Nat.le_add_right _ _,
     ⟨0, hk, by rw [h.dlen hk, Nat.add_mul, Nat.one_mul]; exact Nat.add_lt_add_left hr _⟩⟩
  have hcl : (o.map some).size = s.c.length := by rw [Array.size_map, s1]; exact h.room.c.1.symm
  have hcs : ∀ i (hi : i < s.c.length), s.c[i].size = T * E.base.word_size + r := fun i hi => h.room.c.2 _ (List.getElem_mem hi)
  have hat : ∀ f (hf : f < s.c.length), (storeAll s.c (o.map some))[f]'(by rw [storeAll_length hcl]; exact hf) =
      (flat E.base.word_size (fun t => st (rowAt E.base.word_size E.base.n_data (gt (dataOf ds)) t) f) T ++
        s.c[f].toList.drop (T * E.base.word_size)).toArray := by
    intro f hf
    have hf' : f < E.base.n_outputs := by have := h.room.c.1; change s.c.length = E.base.n_outputs at this; omega
    have hv : gt (o.map some) f = some (flat E.base.word_size (fun t => st (rowAt E.base.word_size E.base.n_data (gt (dataOf ds)) t) f) T) := by
      rw [gt_map (by omega), (q f hf').1, gt_replicate hf', List.nil_append]
    rw [storeAll_at hcl hf hv (by rw [flat_length, hcs f hf]; exact Nat.le_add_right _ _), flat_length]
  unfold encode
  have he : (Coder.horizontal E mem mem').enc s.fec (List.map Array.toList s.d).toArray (Array.replicate (Coder.horizontal E mem mem').n_outputs []) s.props
      = .ok (o.map some, p, Nat.succ s.fec) := by
    rw [h.d]
    show (E.encode_streams_horizontal (dataOf ds) (Array.replicate E.base.n_outputs []) s.props (mem s.fec) >>= _) = _
    rw [e]; rfl
  rw [he, ok_bind]
  refine ⟨_, rfl, ⟨⟨⟨trivial, h.d, ⟨h.room.d, ⟨?_, ?_⟩, h.room.r, s2⟩, h.good⟩, h.rb⟩, ?_, fun f hf => (q f hf).2⟩, rfl⟩
  · exact (storeAll_length hcl).trans h.room.c.1
  · refine mem_storeAll hcl (fun i hi => ?_)
    rw [hat i hi, List.size_toArray, List.length_append, flat_length, List.length_drop, Array.length_toList, hcs i hi]
    omega
  · intro f hf
    have hf' : f < s.c.length := by rw [← storeAll_length hcl]; exact hf
    refine ⟨s.c[f].toList.drop (T * E.base.word_size), ?_, ?_⟩
    · rw [List.length_drop, Array.length_toList, hcs f hf', Nat.add_sub_cancel_left]
    · rw [hat f hf']

/-- chunks that agree but in their last bytes compare equal if the last bytes agree too -/
theorem compareE {w size full : Nat} (hw : WordSize w) (hT : 0 < T) (hr : r < w) (h4 : r ≤ 4) (hf : full = T * w) (hs : size = full + r)
    {as bs : List (Array Nat)} (ha : ∀ b ∈ as, Chunk size b ∧ check_chunk b size = .ok true) (hb : ∀ b ∈ bs, Chunk size b) (hl : as.length = bs.length)
    (hsame : ∀ i j, i < as.length → j < full → gt (bs.getD i #[]) j = gt (as.getD i #[]) j) :
    ∃ v, Bench.compare size as bs = .ok v ∧ (v = true ↔ SameEnds full bs as) ∧ (v = true → bs = as) := by
  have hwp := hw.pos
  have hfull : w ≤ full := by rw [hf]; exact Nat.le_mul_of_pos_left _ hT
  obtain ⟨v, e, hv⟩ := Props.C70_compare (by omega) (fun b h => (ha b h).1) hb
  have hg : ∀ (l : List (Array Nat)) i (hi : i < l.length), l.getD i #[] = l[i] := fun l i hi => by
    rw [List.getD_eq_getElem?_getD, List.getElem?_eq_getElem hi, Option.getD_some]
  have hends : SameEnds full bs as → bs = as := by
    intro h
    refine List.ext_getElem hl.symm (fun i hi hi' => ?_)
    have h1 := (ha _ (List.getElem_mem hi')).1.size
    have h2 := (hb _ (List.getElem_mem hi)).size
    refine gt_ext (by omega) (fun j _ => ?_)
    rw [← hg _ _ hi, ← hg _ _ hi']
    rcases Nat.lt_or_ge j full with hj | hj
    · exact hsame i j hi' hj
    · exact h i j hi hj
  have hiff : v = true ↔ SameEnds full bs as := by
    rw [hv]
    constructor
    · rintro ⟨_, _, _, hbs⟩ i j hi hj
      have hia : i < as.length := by omega
      rw [hg _ _ hi, hg _ _ hia]
      have ca := ha _ (List.getElem_mem hia)
      have cb := hb _ (List.getElem_mem hi)
      have hcb := hbs _ (List.getElem_mem hi)
      have hpre : ∀ j, j < full → gt bs[i] j = gt as[i] j := fun j hj => by
        have := hsame i j hia hj
        rwa [hg _ _ hi, hg _ _ hia] at this
      by_cases hjs : j < size
      swap
      · rw [gt, gt, Array.getD_eq_getD_getElem?, Array.getD_eq_getD_getElem?, Array.getElem?_eq_none (by rw [cb.size]; omega),
          Array.getElem?_eq_none (by rw [ca.1.size]; omega)]
      rcases Nat.lt_or_ge size 4 with hlt | hge
      · obtain ⟨x, ex, hx⟩ := Props.C70_short_chunks ca.1 (by omega) hlt
        obtain ⟨y, ey, hy⟩ := Props.C70_short_chunks cb (by omega) hlt
        rw [ca.2] at ex
        rw [hcb] at ey
        rw [hx.1 (Except.ok.inj ex).symm j hjs, hy.1 (Except.ok.inj ey).symm j hjs, hpre 0 (by omega)]
      · by_contra hne
        have hf4 : 4 ≤ full := by
          rcases hw with h | h | h | h | h
          · omega
          · have : full = 2 * T := by rw [hf, h, Nat.mul_comm]
            omega
          all_goals omega
        have := Props.C70_detects (lo := full) (len := r) ca.1 cb hge ca.2 h4 (.inl hf4) (fun i' hi' => by
          rcases Nat.lt_or_ge i' full with h | h
          · exact (hpre i' h).symm
          · have : size ≤ i' := by by_contra hc; exact hi' ⟨h, by omega⟩
            rw [gt, gt, Array.getD_eq_getD_getElem?, Array.getD_eq_getD_getElem?, Array.getElem?_eq_none (by rw [ca.1.size]; omega),
              Array.getElem?_eq_none (by rw [cb.size]; omega)]) (fun heq => hne (by rw [heq]))
        rw [hcb] at this
        cases this
    · intro h
      have := hends h
      subst this
      exact ⟨rfl, fun _ _ _ _ _ => rfl, fun b hb => (ha b hb).2, fun b hb => (ha b hb).2⟩
  exact ⟨v, e, hiff, fun h => hends (hiff.1 h)⟩

theorem decodeE_spec (H : E.HSpec st mk A) (hA : ∀ ids, A ids) (hT : 0 < T) (hr : r < E.base.word_size) (h4 : r ≤ 4)
    (hm : E.base.n_outputs = if E.base.sys then m else E.base.n_data + m) {s : State (Coder.horizontal E mem mem').σ}
    (h : CodedE E st mk mem mem' T r ds s) {sh : List (Array Nat)} (hsh : Shuffles E.base.sys E.base.n_data (E.base.n_data + m) sh) :
    ∃ v s', decode (Coder.horizontal E mem mem') E.base.sys (T * E.base.word_size + r) sh s = .ok (v, s') ∧
      CodedE E st mk mem mem' T r ds s' ∧ SameEnds (T * E.base.word_size) s'.r s.r ∧
      (∀ i j, i < ds.length → j < T * E.base.word_size → gt (s'.r.getD i #[]) j = gt (ds.getD i #[]) j) ∧
      (v = true ↔ SameEnds (T * E.base.word_size) s.r ds) := by
  have hk := H.kpos
  obtain ⟨md, mc, e, h1, h2, h3, h4', h5⟩ := get_avail_spec hk hsh
  rw [← hm] at e h2
  have hdl : s.d.length = E.base.n_data := h.room.d.1
  have hcl : s.c.length = E.base.n_outputs := h.room.c.1
  have hrl : s.r.length = E.base.n_data := h.room.r.1
  have hpl : s.props.size = E.base.n_outputs := h.room.props
  have hlen := h.toSoundE.len
  have hdlen : (E.base.dataList ((streams md s.d).map Option.isSome)).length = marked md := by
    unfold FecBase.dataList
    by_cases hs : E.base.sys = true
    · rw [if_pos hs, present_eq_avail _ (by rw [streams_size _ _ (by omega), hdl])]
      exact avail_streams (by omega)
    · rw [if_neg hs, h5 (by simpa using hs)]; rfl
  have hplen : (present ((streams mc s.c).map Option.isSome) E.base.n_outputs).length = marked mc := by
    rw [present_eq_avail _ (by rw [streams_size _ _ (by omega), hcl])]
    exact avail_streams (by omega)
  obtain ⟨o, ed, ho, hall⟩ := Fec.decode_ends H hA (D := gt (dataOf ds)) (T := T) (datas := streams md s.d) (pars := streams mc s.c)
    (outs := Array.replicate E.base.n_data (some []))
    (props := (List.zipWith (fun a p => if a then p else .empty) mc.toList s.props.toList).toArray) (mem' s.fec)
    (fun i hi => h.toSoundE.bytes hi) (fun i hi => by rw [h.toSoundE.dlen hi]; exact Nat.le_add_right _ _)
    (fun _ => by rw [streams_size _ _ (by omega), hdl]) (by rw [streams_size _ _ (by omega), hcl]) (by simp [h2, hpl]) (by simp)
    (fun _ i t ht => by
      by_cases hi : i < s.d.length
      · rw [streams_at (by omega) hi] at ht
        split at ht
        · injection ht with ht
          rw [dataOf_at (by omega), ← ht]
          congr 1
          simp only [h.d]
        · cases ht
      · rw [gt, Array.getD_eq_getD_getElem?, Array.getElem?_eq_none (by rw [streams_size _ _ (by omega)]; omega)] at ht
        cases ht)
    (fun f t hf ht => by
      rw [streams_at (by omega) (by omega)] at ht
      split at ht
      · rename_i hmk
        injection ht with ht
        constructor
        · obtain ⟨x, hx, ex⟩ := h.c f (by omega)
          exact ⟨x, by omega, by rw [← ht, ex]⟩
        · rw [← h.props f hf, gt_eq (by simp [h2, hpl]; exact hf), gt_eq (by omega)]
          rw [gt_eq (by omega)] at hmk
          simp [hmk]
      · cases ht)
    (by rw [hdlen]; omega) (by rw [hdlen, hplen]; omega)
  have hos : o.size = s.r.length := by omega
  have hrs : ∀ i (hi : i < s.r.length), s.r[i].size = T * E.base.word_size + r := fun i hi => h.room.r.2 _ (List.getElem_mem hi)
  have hat : ∀ i (hi : i < s.r.length), (storeAll s.r o)[i]'(by rw [storeAll_length hos]; exact hi) =
      ((ds[i]'(by omega)).toList.take (T * E.base.word_size) ++ s.r[i].toList.drop (T * E.base.word_size)).toArray := by
    intro i hi
    have hil : ((ds[i]'(by omega)).toList.take (T * E.base.word_size)).length = T * E.base.word_size := by
      rw [List.length_take, Array.length_toList, (h.good _ (List.getElem_mem _)).1.size, Nat.min_eq_left (Nat.le_add_right _ _)]
    have hv : gt o i = some ((ds[i]'(by omega)).toList.take (T * E.base.word_size)) := by
      rw [hall i (by omega), gt_replicate (by omega), dataOf_at (by omega)]; rfl
    rw [storeAll_at hos hi hv (by rw [hil, hrs i hi]; exact Nat.le_add_right _ _), hil]
  have hg : ∀ (l : List (Array Nat)) i (hi : i < l.length), l.getD i #[] = l[i] := fun l i hi => by
    rw [List.getD_eq_getElem?_getD, List.getElem?_eq_getElem hi, Option.getD_some]
  have hlo : ∀ i j, i < ds.length → j < T * E.base.word_size → gt ((storeAll s.r o).getD i #[]) j = gt (ds.getD i #[]) j := by
    intro i j hi hj
    have hds := (h.good _ (List.getElem_mem hi)).1.size
    have hil : ((ds[i]'(by omega)).toList.take (T * E.base.word_size)).length = T * E.base.word_size := by
      rw [List.length_take, Array.length_toList, hds, Nat.min_eq_left (Nat.le_add_right _ _)]
    rw [hg _ _ (by rw [storeAll_length hos]; omega), hg _ _ hi, hat i (by omega), gt, gt, Array.getD_eq_getD_getElem?, Array.getD_eq_getD_getElem?,
      List.getElem?_toArray, List.getElem?_append_left (by rw [hil]; exact hj), List.getElem?_take_of_lt hj, Array.getElem?_toList]
  have hhi : SameEnds (T * E.base.word_size) (storeAll s.r o) s.r := by
    intro i j hi hj
    have hi' : i < s.r.length := by rw [← storeAll_length hos]; exact hi
    have hds := (h.good _ (List.getElem_mem (h := by omega) (n := i))).1.size
    have hil : ((ds[i]'(by omega)).toList.take (T * E.base.word_size)).length = T * E.base.word_size := by
      rw [List.length_take, Array.length_toList, hds, Nat.min_eq_left (Nat.le_add_right _ _)]
    rw [hg _ _ hi, hg _ _ hi', hat i hi', gt, gt, Array.getD_eq_getD_getElem?, Array.getD_eq_getD_getElem?,
      List.getElem?_toArray, List.getElem?_append_right (by rw [hil]; exact hj), hil, List.getElem?_drop, Nat.add_sub_cancel' hj, Array.getElem?_toList]
  have hrl' : (storeAll s.r o).length = ds.length := by rw [storeAll_length hos]; omega
  have hsz : ∀ b ∈ storeAll s.r o, b.size = T * E.base.word_size + r := by
    refine mem_storeAll hos (fun i hi => ?_)
    have hds := (h.good _ (List.getElem_mem (h := by omega) (n := i))).1.size
    have hrs' := hrs i hi
    simp only [hat i hi, List.size_toArray, List.length_append, List.length_take, List.length_drop, Array.length_toList]
    omega
  have hch : ∀ b ∈ storeAll s.r o, Chunk (T * E.base.word_size + r) b := by
    intro b hb
    refine ⟨hsz b hb, fun j hj => ?_⟩
    obtain ⟨i, hi, rfl⟩ := List.mem_iff_getElem.1 hb
    rw [← hg _ _ hi]
    rcases Nat.lt_or_ge j (T * E.base.word_size) with hj' | hj'
    · rw [hlo i j (by omega) hj', hg _ _ (by omega)]
      exact (h.good _ (List.getElem_mem _)).1.bytes j hj
    · rw [hhi i j hi hj', hg _ _ (by omega)]
      exact (h.rb _ (List.getElem_mem _)).bytes j hj
  obtain ⟨v, ev, hv, hv'⟩ := compareE H.w hT hr h4 rfl rfl h.good hch hrl'.symm hlo
  have hiff : v = true ↔ SameEnds (T * E.base.word_size) s.r ds := by
    rw [hv]
    constructor
    · intro q i j hi hj
      rw [← hhi i j (by rw [storeAll_length hos]; exact hi) hj]
      exact q i j (by rw [storeAll_length hos]; exact hi) hj
    · intro q i j hi hj
      rw [hhi i j hi hj]
      exact q i j (by rw [storeAll_length hos] at hi; exact hi) hj
  have hco : ∀ s', s' = { s with r := storeAll s.r o, fec := Nat.succ s.fec } → CodedE E st mk mem mem' T r ds s' := by
    rintro s' rfl
    exact ⟨⟨⟨trivial, h.d, ⟨h.room.d, h.room.c, ⟨by simp only; rw [storeAll_length hos]; exact h.room.r.1, hsz⟩, h.room.props⟩, h.good⟩, hch⟩, h.c, h.props⟩
  unfold decode
  have e' : get_avail_chunks E.base.sys (Coder.horizontal E mem mem').n_data (Coder.horizontal E mem mem').n_outputs sh = .ok (md, mc) := e
  rw [e', ok_bind]
  simp only
  have he : (Coder.horizontal E mem mem').dec s.fec (streams md s.d) (streams mc s.c)
      (List.zipWith (fun a p => if a then p else .empty) mc.toList s.props.toList).toArray
      (Array.replicate (Coder.horizontal E mem mem').n_data (some [])) = .ok (true, o, Nat.succ s.fec) := by
    show (E.decode_streams_horizontal (streams md s.d) (streams mc s.c) _ (Array.replicate E.base.n_data (some [])) (mem' s.fec) >>= _) = _
    rw [ed]; rfl
  rw [he, ok_bind]
  simp only [h.d, ev, ok_bind, Bool.not_true, Bool.false_eq_true, if_false]
  cases v
  · simp only [Bool.not_false, if_true]
    exact ⟨false, _, rfl, hco _ (by rw [← h.d]), hhi, hlo, hiff⟩
  · simp only [Bool.not_true, Bool.false_eq_true, if_false]
    rw [check_ok (fun b hb => by rw [hv' rfl] at hb; exact (h.good b hb).2), ok_bind]
    simp only [Bool.not_true, Bool.false_eq_true, if_false]
    exact ⟨true, _, rfl, hco _ (by rw [← h.d]), hhi, hlo, hiff⟩

theorem SameEnds.trans {n : Nat} {a b c : List (Array Nat)} (h1 : SameEnds n a b) (h2 : SameEnds n b c) (h : a.length = b.length) : SameEnds n a c :=
  fun i j hi hj => (h1 i j hi hj).trans (h2 i j (by omega) hj)

theorem SameEnds.symm {n : Nat} {a b : List (Array Nat)} (h1 : SameEnds n a b) (h : a.length = b.length) : SameEnds n b a :=
  fun i j hi hj => (h1 i j (by omega) hj).symm

theorem decLoopE_spec (H : E.HSpec st mk A) (hA : ∀ ids, A ids) (hT : 0 < T) (hr : r < E.base.word_size) (h4 : r ≤ 4)
    (hm : E.base.n_outputs = if E.base.sys then m else E.base.n_data + m) {both : Bool} {shs : List (List (Array Nat))} (hne : shs ≠ [])
    (hsh : ∀ l ∈ shs, Shuffles E.base.sys E.base.n_data (E.base.n_data + m) l) {s : State (Coder.horizontal E mem mem').σ}
    (h : SoundE E mem mem' (T * E.base.word_size + r) ds s) (hb : both = false → CodedE E st mk mem mem' T r ds s) :
    ∃ v s', decLoop (Coder.horizontal E mem mem') both E.base.sys (T * E.base.word_size + r) shs s = .ok (v, s') ∧ s'.d = ds ∧
      SameEnds (T * E.base.word_size) s'.r s.r ∧
      (∀ i j, i < ds.length → j < T * E.base.word_size → gt (s'.r.getD i #[]) j = gt (ds.getD i #[]) j) ∧
      (v = true ↔ SameEnds (T * E.base.word_size) s.r ds) := by
  induction shs generalizing s with
  | nil => exact absurd rfl hne
  | cons sh shs ih =>
    have key : ∀ s1, CodedE E st mk mem mem' T r ds s1 → ∃ v s', ((decode (Coder.horizontal E mem mem') E.base.sys (T * E.base.word_size + r) sh s1 >>= fun (v, st) =>
        if v then decLoop (Coder.horizontal E mem mem') both E.base.sys (T * E.base.word_size + r) shs st else pure (false, st)) :
          Res (Bool × State (Coder.horizontal E mem mem').σ)) = .ok (v, s') ∧ s'.d = ds ∧
        SameEnds (T * E.base.word_size) s'.r s1.r ∧
        (∀ i j, i < ds.length → j < T * E.base.word_size → gt (s'.r.getD i #[]) j = gt (ds.getD i #[]) j) ∧
        (v = true ↔ SameEnds (T * E.base.word_size) s1.r ds) := by
      intro s1 h1
      obtain ⟨v, s2, e2, c2, q1, q2, q3⟩ := decodeE_spec H hA hT hr h4 hm h1 (hsh sh (by simp))
      rw [e2, ok_bind]
      have hl : s2.r.length = s1.r.length := c2.room.r.1.trans h1.room.r.1.symm
      cases v
      · exact ⟨false, s2, rfl, c2.d, q1, q2, q3⟩
      · simp only [if_true]
        by_cases hs : shs = []
        · subst hs
          exact ⟨true, s2, rfl, c2.d, q1, q2, q3⟩
        · obtain ⟨v, s3, e3, d3, p1, p2, p3⟩ := ih hs (fun l hl => hsh l (by simp [hl])) c2.toSoundE (fun _ => c2)
          have hse : SameEnds (T * E.base.word_size) s2.r ds := SameEnds.trans q1 (q3.1 rfl) hl
          have hv : v = true := p3.2 hse
          refine ⟨v, s3, e3, d3, ?_, p2, ⟨fun _ => q3.1 rfl, fun _ => hv⟩⟩
          intro i j hi hj
          rw [p1 i j hi hj]
          by_cases hi2 : i < s2.r.length
          · exact q1 i j hi2 hj
          · rw [List.getD_eq_default _ _ (by omega), List.getD_eq_default _ _ (by omega)]
    unfold decLoop
    cases both
    · exact key s (hb rfl)
    · obtain ⟨s1, e1, h1, hr1⟩ := encodeE_spec H hr h
      rw [if_pos rfl, e1, ok_bind]
      rw [← hr1]
      exact key s1 h1

theorem gen_dataE (h0 : 0 < T * E.base.word_size + r) {s : State (Coder.horizontal E mem mem').σ}
    (hr : Room E.base.n_data E.base.n_outputs (T * E.base.word_size + r) s) (hb : ∀ b ∈ s.r, Chunk (T * E.base.word_size + r) b) :
    ∃ d P s', genAll (T * E.base.word_size + r) s.d s.prng = .ok (d, P) ∧
      gen_data (Coder.horizontal E mem mem') (T * E.base.word_size + r) s = .ok s' ∧
      SoundE E mem mem' (T * E.base.word_size + r) d s' ∧ s'.r = s.r := by
  obtain ⟨d, P, e, h1, h2⟩ := genAll_spec h0 hr.d.2 s.prng
  unfold gen_data
  rw [e, ok_bind]
  simp only
  rw [check_ok (fun b hb => (h2 b hb).2), ok_bind]
  exact ⟨d, P, _, rfl, rfl, ⟨⟨trivial, rfl, ⟨⟨h1.trans hr.d.1, fun b hb => (h2 b hb).1.size⟩, hr.c, hr.r, hr.props⟩, h2⟩, hb⟩, rfl⟩

theorem encLoopE (H : E.HSpec st mk A) (hr : r < E.base.word_size) (n : Nat) {s : State (Coder.horizontal E mem mem').σ}
    (h : SoundE E mem mem' (T * E.base.word_size + r) ds s) :
    ∃ s', encLoop (Coder.horizontal E mem mem') n s = .ok (true, s') ∧ s'.d = ds := by
  induction n generalizing s with
  | zero => exact ⟨s, rfl, h.d⟩
  | succ n ih =>
    obtain ⟨s1, e1, h1, _⟩ := encodeE_spec H hr h
    unfold encLoop
    rw [e1, ok_bind]
    exact ih h1.toSoundE

theorem leavesEnds (H : E.HSpec st mk A) (hA : ∀ ids, A ids) {w k n : Nat} {sys : Bool} (hw : E.base.word_size = w) (hk : E.base.n_data = k)
    (hn : E.base.n_outputs = n) (hs : E.base.sys = sys) (hm : n = if sys then m else k + m) (hT : 0 < T) (hr : r < w) (h4 : r ≤ 4) :
    LeavesEnds E w k n m sys T r := by
  subst hw hk hn hs
  refine ⟨rfl, rfl, fun mem mem' s hroom hb => ?_⟩
  obtain ⟨d, P, s1, e, e1, h1, hr1⟩ := gen_dataE (Nat.add_pos_left (Nat.mul_pos hT H.w.pos) _) hroom hb
  refine ⟨d, P, e, fun samples => ?_, fun shs hne hsh => ⟨?_, ?_⟩⟩
  · obtain ⟨s', e', h'⟩ := encLoopE H hr samples h1
    unfold enc_only
    rw [e1, ok_bind]
    exact ⟨s', e', h'⟩
  · obtain ⟨s2, e2, h2, hr2⟩ := encodeE_spec H hr h1
    obtain ⟨v, s3, e3, q1, q2, q3, q4⟩ := decLoopE_spec H hA hT hr h4 hm (both := false) hne hsh h2.toSoundE (fun _ => h2)
    unfold dec_only
    rw [e1, ok_bind, e2, ok_bind]
    rw [hr2, hr1] at q2 q4
    exact ⟨v, s3, e3, q1, q3, q2, q4⟩
  · obtain ⟨v, s3, e3, q1, q2, q3, q4⟩ := decLoopE_spec H hA hT hr h4 hm (both := true) hne hsh h1 (fun q => by cases q)
    unfold enc_dec
    rw [e1, ok_bind]
    rw [hr1] at q2 q4
    exact ⟨v, s3, e3, q1, q3, q2, q4⟩

end
end Bench
end Quad
