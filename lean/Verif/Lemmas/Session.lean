import Verif.Spec.Session
import Verif.Lemmas.FecVert

/-!
Encodings and decodings under way on one code object do not disturb each other: each owns its blocks, a packet changes only
the blocks of its own and the scratch of the object, and what the scratch holds between packets does not matter.
-/

namespace Quad
open Spec Session

/-- the fragments and properties of a code, word by word -/
structure CodeOf (w k nOut : Nat) (st : Array Nat → Nat → Nat) (mk : Array Nat → Nat → Option Nat) (data : Array (List Nat)) (T : Nat)
    (frags : Array (List Nat)) (props : Array Properties) : Prop where
  fsize : frags.size = nOut
  psize : props.size = nOut
  frag : ∀ f, f < nOut → gt frags f = flat w (fun t => st (rowAt w k (gt data) t) f) T
  prop : ∀ f, f < nOut → gt props f = ⟨marksOf (fun t => mk (rowAt w k (gt data) t) f) T⟩

theorem gt_push' {α : Type} [Inhabited α] {a : Array α} {x : α} {i : Nat} : gt (a.push x) i = if i = a.size then x else gt a i := by
  unfold gt
  by_cases h : i = a.size
  · rw [if_pos h]; simp [h]
  · rw [if_neg h]
    simp only [Array.getD_eq_getD_getElem?, Array.getElem?_push, if_neg h]

theorem packet_eq (size : Nat) (s : List Nat) (j : Nat) : packet size s j = padPkt size (s.drop (j * size)) := by
  unfold packet padPkt
  apply Array.ext
  · simp; omega
  · intro i h1 h2
    have hi : i < size := by simpa using h1
    simp only [Array.getElem_ofFn, List.getElem_toArray]
    by_cases h : i < (s.drop (j * size)).length
    · rw [List.getElem_append_left (by simp; simp at h; omega), List.getElem_take, List.getElem_drop]
      rw [List.getD_eq_getElem?_getD, List.getElem?_eq_getElem (by simp at h; omega)]
      rfl
    · rw [List.getElem_append_right (by simp; simp at h; omega), List.getElem_replicate]
      rw [List.getD_eq_getElem?_getD, List.getElem?_eq_none (by simp at h; omega)]
      rfl

theorem flat_zeros (w : Nat) {f : Nat → Nat} {n : Nat} (h : ∀ t, t < n → f t = 0) : flat w f n = List.replicate (n * w) 0 := by
  induction n with
  | zero => simp [flat_zero]
  | succ n ih =>
    rw [flat_succ, ih (fun t ht => h t (by omega)), h n (by omega), Nat.add_mul, Nat.one_mul, List.replicate_add]
    congr 1
    have : ∀ w, leBytes w 0 = List.replicate w 0 := by
      intro w
      induction w with
      | zero => rfl
      | succ w ih => rw [List.replicate_succ, ← ih]; rfl
    exact this w

/-- a packet of a flat stream -/
theorem flat_packet {w pkt T j : Nat} {F : Nat → Nat} (h : ∀ t, T ≤ t → F t = 0) :
    (flat w (fun c => F (j * pkt + c)) pkt).toArray = packet (pkt * w) (flat w F T) j := by
  rw [packet_eq]
  unfold padPkt
  congr 1
  have e1 : flat w F (T + (j * pkt + pkt)) = flat w F T ++ List.replicate ((j * pkt + pkt) * w) 0 := by
    rw [flat_add]
    congr 1
    exact flat_zeros w (fun t _ => h _ (by omega))
  have e2 : flat w F (T + (j * pkt + pkt)) = flat w F (j * pkt) ++ flat w (fun t => F (j * pkt + t)) (pkt + T) := by
    rw [← flat_add]; congr 1; omega
  have hl : j * (pkt * w) = (flat w F (j * pkt)).length := by rw [flat_length, Nat.mul_assoc]
  have e3 : flat w (fun c => F (j * pkt + c)) pkt = ((flat w F T ++ List.replicate ((j * pkt + pkt) * w) 0).drop (j * (pkt * w))).take (pkt * w) := by
    rw [← e1, e2, hl, List.drop_left, flat_take (by omega)]
  rw [e3, List.drop_append, List.take_append, List.drop_replicate, List.take_replicate]
  congr 2
  have : (j * pkt + pkt) * w = j * (pkt * w) + pkt * w := by ring
  simp only [List.length_drop, flat_length]
  rw [this]
  omega

/-- a packet of a stream of whole words -/
theorem wordAt_packet {w pkt T j : Nat} {s : List Nat} (hl : s.length = T * w) (hb : ∀ x ∈ s, x < 256) :
    (flat w (fun c => wordAt w s (j * pkt + c)) pkt).toArray = packet (pkt * w) s j := by
  have h := flat_packet (w := w) (pkt := pkt) (T := T) (j := j) (F := wordAt w s)
    (fun t ht => wordAt_oob (by rw [hl]; exact Nat.mul_le_mul_right _ ht))
  rw [h]
  congr 1
  have := flat_wordAt (w := w) (l := s) (T := T) hl.ge hb
  rw [this, List.take_of_length_le hl.le]

/-- the marks of the first words are those of all the words that are there -/
theorem marksOf_filter {f : Nat → Option Nat} {T n : Nat} (h : ∀ t, T ≤ t → f t = none) :
    (marksOf f T).filter (fun x => decide (x.1 < n)) = marksOf f n := by
  have key : ∀ d, (marksOf f (n + d)).filter (fun x => decide (x.1 < n)) = marksOf f n := by
    intro d
    rw [marksOf_add, List.filter_append]
    rw [List.filter_eq_self.mpr (fun x hx => by simpa using (mem_marksOf.mp hx).1)]
    rw [List.filter_eq_nil_iff.mpr, List.append_nil]
    intro x hx
    rw [List.mem_map] at hx
    obtain ⟨y, _, rfl⟩ := hx
    simp
  rcases Nat.le_total n T with hn | hn
  · have := key (T - n)
    rwa [show n + (T - n) = T by omega] at this
  · have := key 0
    rw [Nat.add_zero] at this
    rw [← this, show n = T + (n - T) by omega, marksOf_pad h]

namespace FecV
variable {E : FecV} {st : Array Nat → Nat → Nat} {mk : Array Nat → Nat → Option Nat} {b0 : Nat} {Live : CtxB → Heap → Prop}

/-- `data` are streams of `T` words, coded into `frags` -/
structure Coded (E : FecV) (st : Array Nat → Nat → Nat) (mk : Array Nat → Nat → Option Nat) (data : Array (List Nat)) (T : Nat)
    (frags : Array (List Nat)) (fprops : Array Properties) : Prop where
  size : data.size = E.base.n_data
  bytes : ∀ i, i < E.base.n_data → ∀ x ∈ gt data i, x < 256
  len : ∀ i, i < E.base.n_data → (gt data i).length = T * E.base.word_size
  code : CodeOf E.base.word_size E.base.n_data E.base.n_outputs st mk data T frags fprops

/-- the tasks of `Task.Ok`, for any code -/
def TaskOk (E : FecV) (st : Array Nat → Nat → Nat) (mk : Array Nat → Nat → Option Nat) : Task → Prop
  | .enc data frags fprops => ∃ T, Coded E st mk data T frags fprops
  | .dec data frags fprops props ids => (∃ T, Coded E st mk data T frags fprops) ∧
      ValidIds E.base.n_data (if E.base.sys then E.base.n_data + E.base.n_outputs else E.base.n_outputs) ids ∧
      props.size = E.base.n_outputs ∧
      ∀ i f, i < E.base.n_data → f < E.base.n_outputs → gt ids i = (if E.base.sys then E.base.n_data + f else f) →
        gt props f = gt fprops f

/-- a task under way after `j` packets, with `N` packets to come at most; `own` are its blocks -/
def Under (E : FecV) (st : Array Nat → Nat → Nat) (mk : Array Nat → Nat → Option Nat) (b0 : Nat) (Live : CtxB → Heap → Prop) (C0 : CtxB)
    (N : Nat) (H : Heap) (own : Nat → Prop) (r : Running) (t : Task) (j : Nat) : Prop :=
  r.job = t.job E.base.sys E.base.n_data ∧ r.offset = j * E.base.pkt_size ∧ (∀ b, own b → b0 ≤ b ∧ b < H.size) ∧
  ∃ wm om : Array Nat, r.words = ⟨wm, E.base.n_data, E.base.pkt_size⟩ ∧
  match t with
  | .enc data frags fprops => r.ctx = none ∧ r.output = ⟨om, E.get_n_outputs, E.base.pkt_size⟩ ∧
      Io E b0 wm om E.get_n_outputs H ∧ own = InMem (wm ++ om) ∧ r.props.size = E.base.n_outputs ∧
      ∃ T, Coded E st mk data T frags fprops ∧
      ∀ f, f < E.base.n_outputs →
        gt r.props f = ⟨marksOf (fun t => mk (rowAt E.base.word_size E.base.n_data (gt data) t) f) (j * E.base.pkt_size)⟩
  | .dec data frags fprops _ ids => r.output = ⟨om, E.base.n_data, E.base.pkt_size⟩ ∧ wm.size = E.base.n_data ∧
      om.size = E.base.n_data ∧ InjPtr (wm ++ om) ∧ (∀ i, i < wm.size → b0 ≤ gt wm i) ∧ ids.size = E.base.n_data ∧
      (∃ T, Coded E st mk data T frags fprops) ∧
      ∃ (C : CtxB) (Good : CtxB → Heap → Nat → Prop) (Own : Nat → Prop), r.ctx = some C ∧ own = (fun b => Own b ∨ InMem wm b) ∧
        Good C H (j * E.base.pkt_size) ∧
        (∀ i b, i < wm.size → gt wm i = b → ¬ Own b) ∧
        (∀ {C H H1 t}, Good C H t → H.size ≤ H1.size → Live C0 H1 → (∀ b, Own b → gt H1 b = gt H b) →
          Okb E.base.pkt_size H1 wm → Good C H1 t) ∧
        (∀ {C H t}, Good C H t → Live C0 H ∧ Okb E.base.pkt_size H wm ∧ Okb E.base.pkt_size H om) ∧
        (∀ {C H t}, t ≤ (j + N) * E.base.pkt_size → Good C H t →
          (∀ i c, i < E.base.n_data → c < E.base.pkt_size → el H (gt wm i) c
            = wordAt E.base.word_size (fragment E.base.sys E.base.n_data data frags (gt ids i)) (t + c)) →
          ∃ C' H', E.decode C ⟨om, E.base.n_data, E.base.pkt_size⟩ r.props t ⟨wm, E.base.n_data, E.base.pkt_size⟩ H
              = .ok (C', H') ∧ Good C' H' (t + E.base.pkt_size) ∧ Only b0 (fun b => Own b ∨ InMem wm b) H H' ∧
            ∀ i c, i < E.base.n_data → c < E.base.pkt_size →
              el H' (gt om i) c = gt (rowAt E.base.word_size E.base.n_data (gt data) (t + c)) i)

theorem Under.frame {C0 : CtxB} {N : Nat} {H H1 : Heap} {own : Nat → Prop} {r : Running} {t : Task} {j : Nat}
    (h : Under E st mk b0 Live C0 N H own r t j) (hs : H.size ≤ H1.size) (hL : Live C0 H1) (ho : ∀ b, own b → gt H1 b = gt H b) :
    Under E st mk b0 Live C0 N H1 own r t j := by
  obtain ⟨h1, h2, h3, wm, om, h4, h5⟩ := h
  refine ⟨h1, h2, fun b hb => ⟨(h3 b hb).1, lt_of_lt_of_le (h3 b hb).2 hs⟩, wm, om, h4, ?_⟩
  cases t with
  | enc data frags fprops =>
    obtain ⟨a1, a2, a3, a4, a5, a6⟩ := h5
    refine ⟨a1, a2, ⟨a3.wsz, a3.osz, a3.inj, a3.ge, fun i hi => ?_⟩, a4, a5, a6⟩
    have := a3.ok i hi
    exact ⟨by omega, by rw [ho _ (by rw [a4]; exact ⟨i, hi, rfl⟩)]; exact this.2⟩
  | dec data frags fprops props ids =>
    obtain ⟨a1, a2, a3, a4, a5, a6, a7, C, Good, Own, a8, a9, a10, a11, a12, a13, a14⟩ := h5
    refine ⟨a1, a2, a3, a4, a5, a6, a7, C, Good, Own, a8, a9, ?_, a11, a12, a13, a14⟩
    refine a12 a10 hs hL (fun b hb => ho b (by rw [a9]; exact .inl hb)) (fun i hi => ?_)
    have := (a13 a10).2.1 i hi
    exact ⟨by omega, by rw [ho _ (by rw [a9]; exact .inr ⟨i, hi, rfl⟩)]; exact this.2⟩

theorem Under.fewer {C0 : CtxB} {N N' : Nat} {H : Heap} {own : Nat → Prop} {r : Running} {t : Task} {j : Nat}
    (h : Under E st mk b0 Live C0 N H own r t j) (hN : N' ≤ N) : Under E st mk b0 Live C0 N' H own r t j := by
  obtain ⟨h1, h2, h3, wm, om, h4, h5⟩ := h
  refine ⟨h1, h2, h3, wm, om, h4, ?_⟩
  cases t with
  | enc data frags fprops => exact h5
  | dec data frags fprops props ids =>
    obtain ⟨a1, a2, a3, a4, a5, a6, a7, C, Good, Own, a8, a9, a10, a11, a12, a13, a14⟩ := h5
    exact ⟨a1, a2, a3, a4, a5, a6, a7, C, Good, Own, a8, a9, a10, a11, a12, a13,
      fun {C H t} ht => a14 (le_trans ht (Nat.mul_le_mul_right _ (by omega)))⟩

theorem packets_spec {r : Running} {t : Task} (h : r.job = t.job E.base.sys E.base.n_data) :
    (packets E r).size = E.base.n_data ∧ ∀ i, i < E.base.n_data → gt (packets E r) i
      = padPkt (E.base.pkt_size * E.base.word_size) ((gt (t.job E.base.sys E.base.n_data).streams i).drop (r.offset * E.base.word_size)) := by
  unfold packets
  refine ⟨by simp, fun i hi => ?_⟩
  rw [gt_ofFn hi, readPkt_eq, h]
  rfl

/-- the next packet -/
theorem next_spec (hE : E.VSpec st mk b0 Live) {C0 : CtxB} {N i j : Nat} {H : Heap} {run : Array Running} {own : Nat → Prop} {t : Task}
    (junk : Nat → Nat → Nat) (hi : i < run.size) (hL : Live C0 H) (h : Under E st mk b0 Live C0 (N + 1) H own (gt run i) t j) :
    ∃ H' r', next E i junk ⟨C0, H, run⟩
        = .ok (⟨C0, H', run.setIfInBounds i r'⟩, t.event E.base.pkt_size E.base.word_size i j) ∧
      Live C0 H' ∧ Only b0 own H H' ∧ Under E st mk b0 Live C0 N H' own r' t (j + 1) := by
  set r := gt run i with hr
  have hrd : rd run i = .ok r := rd_gt hi
  obtain ⟨h1, h2, h3, wm, om, h4, h5⟩ := h
  obtain ⟨p1, p2⟩ := packets_spec h1
  cases t with
  | enc data frags fprops =>
    obtain ⟨a1, a2, a3, a4, a5, T, hc, a6⟩ := h5
    change ∀ i, i < E.base.n_data → gt (packets E r) i
      = padPkt (E.base.pkt_size * E.base.word_size) ((gt data i).drop (r.offset * E.base.word_size)) at p2
    obtain ⟨f1, f2⟩ := freshChars_spec junk E.get_n_outputs E.buf_size
    obtain ⟨s', e', q1, ⟨q8, q9, q10⟩, q2, q3, q4, q5, q6, q7⟩ := encStep_spec hE (wm := wm) (om := om) (off := r.offset)
      (s := ⟨C0, H, packets E r, freshChars junk E.get_n_outputs E.buf_size, r.props⟩) hL a3 p1.ge
      (fun i hi => by show (gt (packets E r) i).size = _; rw [p2 i hi, padPkt_size]; rfl)
      (fun i hi => by
        show ∀ x ∈ (gt (packets E r) i).toList, x < 256
        rw [p2 i hi]; exact padPkt_bytes (fun x hx => hc.bytes i hi x (List.mem_of_mem_drop hx)))
      f1.ge f2 a5
    simp only at q1 q8 q9 q10 q7
    have hrow : ∀ c, c < E.base.pkt_size → pktRow E.base.word_size E.base.n_data (packets E r) c
        = rowAt E.base.word_size E.base.n_data (gt data) (j * E.base.pkt_size + c) := fun c hc => by
      rw [pktRow_padPkt p2 hc, h2]
    have hz : ∀ t, T ≤ t → rowAt E.base.word_size E.base.n_data (gt data) t = Array.replicate E.base.n_data 0 :=
      fun t ht => rowAt_oob (fun i hi => (hc.len i hi).le) ht
    have hpr : ∀ f, f < E.base.n_outputs → gt s'.props f
        = ⟨marksOf (fun t => mk (rowAt E.base.word_size E.base.n_data (gt data) t) f) ((j + 1) * E.base.pkt_size)⟩ := by
      intro f hf
      rw [(q7 f hf).2, a6 f hf, Nat.add_mul, Nat.one_mul, marksOf_add, h2]
      congr 3
      exact marksOf_congr (fun c hc' => by rw [hrow c hc'])
    refine ⟨s'.H, { r with props := s'.props, offset := r.offset + E.base.pkt_size }, ?_, by rw [← q8]; exact q2, by rw [a4]; exact q9,
      h1, ?_, fun b hb => ⟨(h3 b hb).1, by rw [q9.1]; exact (h3 b hb).2⟩, wm, om, h4, a1, a2, q3, a4, q6, T, hc, hpr⟩
    · unfold next
      simp only
      rw [hrd, ok_bind]
      simp only [a1]
      rw [h4, a2, e', ok_bind, wr_ok hi, ok_bind, q8]
      have ho := hE.outs
      congr 3
      · apply gt_ext
        · simp [hc.code.fsize]; omega
        · intro f hf
          have hf' : f < E.base.n_outputs := by simp at hf; omega
          rw [gt_extract (by omega) (by omega), Nat.zero_add, gt_map (by rw [hc.code.fsize]; exact hf'), (q7 f hf').1,
            hc.code.frag f hf']
          rw [flat_congr (g := fun c => st (rowAt E.base.word_size E.base.n_data (gt data) (j * E.base.pkt_size + c)) f)
            (fun c hc' => by rw [hrow c hc'])]
          exact flat_packet (F := fun t => st (rowAt E.base.word_size E.base.n_data (gt data) t) f)
            (fun t ht => by rw [hz t ht]; exact hE.stz hf')
      · apply gt_ext
        · simp [hc.code.psize, q6]
        · intro f hf
          have hf' : f < E.base.n_outputs := by omega
          rw [gt_map (by rw [hc.code.psize]; exact hf'), hc.code.prop f hf', hpr f hf']
          unfold upTo
          rw [marksOf_filter (fun t ht => by rw [hz t ht]; exact hE.mkz hf')]
    · show r.offset + E.base.pkt_size = _
      rw [h2]; ring
  | dec data frags fprops props ids =>
    obtain ⟨a1, a2, a3, a4, a5, a6, ⟨T, hc⟩, C, Good, Own, a8, a9, a10, a11, a12, a13, a14⟩ := h5
    change ∀ i, i < E.base.n_data → gt (packets E r) i
      = padPkt (E.base.pkt_size * E.base.word_size) ((gt (ids.map (fragment E.base.sys E.base.n_data data frags)) i).drop
        (r.offset * E.base.word_size)) at p2
    obtain ⟨f1, f2⟩ := freshChars_spec junk E.base.n_data E.buf_size
    obtain ⟨s', e', q1, ⟨q2, q2'⟩, q3, q4, q5, q6⟩ := decStep_spec hE (wm := wm) (om := om) (off := r.offset)
      (s := ⟨C, H, packets E r, freshChars junk E.base.n_data E.buf_size⟩) (props := r.props)
      (Good := fun C' Hh t => Good C' Hh t ∧ Only b0 own H Hh) (rows := rowAt E.base.word_size E.base.n_data (gt data))
      (S := fun i t => wordAt E.base.word_size (fragment E.base.sys E.base.n_data data frags (gt ids i)) t)
      (fun hg => (a13 hg.1).2)
      (fun {C' Ha Hb t} hg hf ho => by
        refine ⟨a12 hg.1 hf.size.ge (hE.keep (a13 hg.1).1 hf.size.ge (fun b hb => hf.out b (fun i hi he => by
          have := a5 i hi; omega))) (fun b hb => hf.out b (fun i hi he => a11 i b hi he hb)) ho, ?_⟩
        exact hg.2.trans (Only.of_frame hf (fun i hi _ => by rw [a9]; exact .inr ⟨i, hi, rfl⟩)))
      (fun {C' Ha} hg hw => by
        obtain ⟨C2, H2, e2, g2, o2, v2⟩ := a14 (by rw [h2]; exact Nat.mul_le_mul_right _ (by omega)) hg.1 hw
        exact ⟨C2, H2, e2, ⟨g2, hg.2.trans (by rw [a9]; exact o2)⟩, fun i c hi hc' => congrArg (· % _) (v2 i c hi hc')⟩)
      a2 a3 a4 ⟨by rw [h2]; exact a10, rfl, fun _ _ _ => rfl⟩ p1.ge
      (fun i hi => by show (gt (packets E r) i).size = _; rw [p2 i hi, padPkt_size]; rfl)
      (fun i c hi hc' => by
        show wordAt _ (gt (packets E r) i).toList c = _
        rw [p2 i hi, wordAt_padPkt hc', gt_map (by omega)])
      f1.ge f2
    simp only at q1 q5
    refine ⟨s'.H, { r with ctx := some s'.C, offset := r.offset + E.base.pkt_size }, ?_, (a13 q2).1, q2',
      h1, ?_, fun b hb => ⟨(h3 b hb).1, by rw [q2'.1]; exact (h3 b hb).2⟩, wm, om, h4, a1, a2, a3, a4, a5, a6, ⟨T, hc⟩,
      s'.C, Good, Own, rfl, a9, ?_, a11, a12, a13, ?_⟩
    · unfold next
      simp only
      rw [hrd, ok_bind]
      simp only [a8]
      rw [h4, a1, e', ok_bind, wr_ok hi, ok_bind]
      congr 3
      apply gt_ext
      · simp [hc.size, q5, f1]
      · intro f hf
        have hf' : f < E.base.n_data := by omega
        rw [gt_map (by rw [hc.size]; exact hf'), q6 f hf', h2]
        rw [flat_congr (g := fun c => wordAt E.base.word_size (gt data f) (j * E.base.pkt_size + c)) (fun c _ => by rw [rowAt_gt hf'])]
        exact wordAt_packet (hc.len f hf') (hc.bytes f hf')
    · show r.offset + E.base.pkt_size = _
      rw [h2]; ring
    · rw [h2] at q2
      rw [Nat.add_mul, Nat.one_mul]; exact q2
    · intro C' H' t ht
      exact a14 (by rw [show j + (N + 1) = j + 1 + N by omega]; exact ht)

/-- beginning a task -/
theorem start_spec (hE : E.VSpec st mk b0 Live) {C0 : CtxB} {N : Nat} {H : Heap} {run : Array Running} {t : Task} (mem : Nat → Nat)
    (junk : Nat → Nat → Nat) (hL : Live C0 H) (ht : TaskOk E st mk t) :
    ∃ H' r own, start E (t.job E.base.sys E.base.n_data) mem junk ⟨C0, H, run⟩ = .ok ⟨C0, H', run.push r⟩ ∧ Live C0 H' ∧ Ext H H' ∧
      (∀ b, own b → H.size ≤ b) ∧ Under E st mk b0 Live C0 N H' own r t 0 := by
  have hb0 := hE.size hL
  cases t with
  | enc data frags fprops =>
    obtain ⟨T, hc⟩ := ht
    obtain ⟨H1, wm, e1, s1, g1, z1, x1, ok1, in1⟩ := Bufs.full_spec junk H E.base.n_data E.base.pkt_size
    obtain ⟨H2, om, e2, s2, g2, z2, x2, ok2, in2⟩ := Bufs.full_spec junk H1 E.get_n_outputs E.base.pkt_size
    have hge : ∀ i, i < (wm ++ om).size → H.size ≤ gt (wm ++ om) i := by
      intro i hi
      rw [gt_append]
      split
      · rw [g1 i (by omega)]; omega
      · rw [g2 _ (by rw [Array.size_append] at hi; omega)]; omega
    have hin : InjPtr (wm ++ om) := in1.append in2 (by
      intro i j hi hj
      rw [g1 i (by omega), g2 j (by omega)]; omega)
    have hok : Okb E.base.pkt_size H2 (wm ++ om) := (ok1.ext x2).append ok2
    refine ⟨H2, ⟨.enc data, ⟨wm, E.base.n_data, E.base.pkt_size⟩, ⟨om, E.get_n_outputs, E.base.pkt_size⟩, none,
      Array.replicate E.base.n_outputs .empty, 0⟩, InMem (wm ++ om), ?_, hE.keep hL (x1.trans x2).le
      (fun b hb' => (x1.trans x2).same b (by omega)), x1.trans x2, ?_, rfl, (by simp), ?_, wm, om, rfl, rfl, rfl,
      ⟨s1, s2, hin, fun i hi => le_trans hb0 (hge i hi), hok⟩, rfl, (by simp), T, hc, ?_⟩
    · unfold start
      simp only [Task.job, Job.streams, cassert, hc.size, decide_true, if_true, ok_bind, e1, e2]
      rfl
    · rintro b ⟨i, hi, rfl⟩; exact hge i hi
    · rintro b ⟨i, hi, rfl⟩; exact ⟨le_trans hb0 (hge i hi), (hok i hi).1⟩
    · intro f hf
      simp only [Nat.zero_mul, marksOf_zero]
      rw [gt_replicate hf]; rfl
  | dec data frags fprops props ids =>
    obtain ⟨⟨T, hc⟩, hids, hps, hpr⟩ := ht
    obtain ⟨H1, wm, e1, s1, g1, z1, x1, ok1, in1⟩ := Bufs.full_spec junk H E.base.n_data E.base.pkt_size
    obtain ⟨H2, om, e2, s2, g2, z2, x2, ok2, in2⟩ := Bufs.full_spec junk H1 E.base.n_data E.base.pkt_size
    have hge : ∀ i, i < (wm ++ om).size → H.size ≤ gt (wm ++ om) i := by
      intro i hi
      rw [gt_append]
      split
      · rw [g1 i (by omega)]; omega
      · rw [g2 _ (by rw [Array.size_append] at hi; omega)]; omega
    have hin : InjPtr (wm ++ om) := in1.append in2 (by
      intro i j hi hj
      rw [g1 i (by omega), g2 j (by omega)]; omega)
    have hok : Okb E.base.pkt_size H2 (wm ++ om) := (ok1.ext x2).append ok2
    have hL2 : Live C0 H2 := hE.keep hL (x1.trans x2).le (fun b hb' => (x1.trans x2).same b (by omega))
    have hz : ∀ t, T ≤ t → rowAt E.base.word_size E.base.n_data (gt data) t = Array.replicate E.base.n_data 0 :=
      fun t ht => rowAt_oob (fun i hi => (hc.len i hi).le) ht
    have hw : ∀ i, i < wm.size → InMem (wm ++ om) (gt wm i) := fun i hi =>
      ⟨i, by rw [Array.size_append]; omega, by rw [gt_append, if_pos hi]⟩
    have ho : ∀ i, i < om.size → InMem (wm ++ om) (gt om i) := fun i hi =>
      ⟨wm.size + i, by rw [Array.size_append]; omega, by rw [gt_append, if_neg (by omega)]; simp⟩
    have hfr : ∀ i t, i < E.base.n_data → wordAt E.base.word_size (fragment E.base.sys E.base.n_data data frags (gt ids i)) t
        = fragVal E.base.sys E.base.n_data st (rowAt E.base.word_size E.base.n_data (gt data) t) (gt ids i) := by
      intro i t hi
      have hlt := hids.lt i hi
      have hst : ∀ f, f < E.base.n_outputs → wordAt E.base.word_size (gt frags f) t
          = st (rowAt E.base.word_size E.base.n_data (gt data) t) f := by
        intro f hf
        rw [hc.code.frag f hf]
        by_cases htT : t < T
        · exact wordAt_flat (f := fun t => st (rowAt E.base.word_size E.base.n_data (gt data) t) f) htT
            (hE.lt (rowAt_isRow hc.bytes t) hf)
        · rw [wordAt_oob (by rw [flat_length]; exact Nat.mul_le_mul_right _ (by omega)), hz t (by omega), hE.stz hf]
      unfold fragment fragVal
      by_cases hs : E.base.sys = true
      · rw [if_pos hs] at hlt ⊢
        rw [if_pos hs]
        by_cases hk : gt ids i < E.base.n_data
        · rw [if_pos hk, if_pos hk, rowAt_gt hk]
        · rw [if_neg hk, if_neg hk, hst _ (by omega)]
      · rw [if_neg hs] at hlt ⊢
        rw [if_neg hs, hst _ hlt]
    obtain ⟨Good, Own, H3, C, props', e, g0, x3, w1, w2, w3, w4, _, w6⟩ := hE.dec (rows := rowAt E.base.word_size E.base.n_data (gt data))
      (T := T + (N + 1) * E.base.pkt_size) (ids := ids) (props := props) (wm := wm) (om := om) mem junk hL2
      (fun t _ => rowAt_isRow hc.bytes t) hids hps (by
        intro i f hi hf he
        rw [hpr i f hi hf he, hc.code.prop f hf, marksOf_pad (fun t ht => by rw [hz t ht]; exact hE.mkz hf)])
      s1 s2 hin (fun i hi => le_trans hb0 (hge i hi)) hok
    refine ⟨H3, ⟨.dec ids (ids.map (fragment E.base.sys E.base.n_data data frags)) props, ⟨wm, E.base.n_data, E.base.pkt_size⟩,
      ⟨om, E.base.n_data, E.base.pkt_size⟩, some C, props', 0⟩, fun b => Own b ∨ InMem wm b, ?_, (w4 g0).1,
      (x1.trans x2).trans x3, ?_, rfl, (by simp), ?_, wm, om, rfl, rfl, s1, s2, hin, ?_, hids.size, ⟨T, hc⟩, C, Good, Own, rfl, rfl,
      (by rw [Nat.zero_mul]; exact g0), ?_, w3, w4, ?_⟩
    · unfold start
      simp only [Task.job, Job.streams, cassert, Array.size_map, hids.size, decide_true, if_true, ok_bind, e1, e2, e]
      rfl
    · rintro b (hb | ⟨i, hi, rfl⟩)
      · by_cases hlt : b < H2.size
        · obtain ⟨i, hi, rfl⟩ := (w1 b hb).2.2 hlt
          obtain ⟨j, hj, he⟩ := ho i hi
          rw [← he]; exact hge j hj
        · have := (x1.trans x2).le; omega
      · obtain ⟨j, hj, he⟩ := hw i hi
        rw [← he]; exact hge j hj
    · rintro b (hb | ⟨i, hi, rfl⟩)
      · exact ⟨(w1 b hb).1, (w1 b hb).2.1⟩
      · obtain ⟨j, hj, he⟩ := hw i hi
        rw [← he]
        exact ⟨le_trans hb0 (hge j hj), lt_of_lt_of_le (hok j hj).1 x3.le⟩
    · intro i hi
      obtain ⟨j, hj, he⟩ := hw i hi
      rw [← he]; exact le_trans hb0 (hge j hj)
    · intro i b hi he hb
      obtain ⟨j, hj, he2⟩ := hw i hi
      have hlt : b < H2.size := by rw [← he, ← he2]; exact (hok j hj).1
      obtain ⟨a, ha, he3⟩ := (w1 b hb).2.2 hlt
      exact hin.disj i a hi ha (by rw [he, he3])
    · intro C' H' t ht hg hwords
      refine w6 ?_ hg (fun i c hi hc' => by rw [hwords i c hi hc', hfr i _ hi])
      rw [Nat.zero_add] at ht
      rw [Nat.add_mul, Nat.one_mul]
      omega

/-- all tasks under way -/
structure Inv (E : FecV) (st : Array Nat → Nat → Nat) (mk : Array Nat → Nat → Option Nat) (b0 : Nat) (Live : CtxB → Heap → Prop) (C0 : CtxB)
    (N : Nat) (H : Heap) (run : Array Running) (a : Array (Task × Nat)) : Prop where
  live : Live C0 H
  size : run.size = a.size
  under : ∃ own : Nat → Nat → Prop, (∀ i, i < a.size → Under E st mk b0 Live C0 N H (own i) (gt run i) (gt a i).1 (gt a i).2) ∧
    ∀ i j b, i < a.size → j < a.size → own i b → own j b → i = j

/-- any program -/
theorem run_spec (hE : E.VSpec st mk b0 Live) {C0 : CtxB} : ∀ (l : List Step) {N : Nat} {H : Heap} {run : Array Running}
    {a : Array (Task × Nat)}, l.length ≤ N → Inv E st mk b0 Live C0 N H run a → ValidSteps (TaskOk E st mk) a.size l →
    ∃ H' run', Session.run E (l.map (Step.act E.base.sys E.base.n_data)) ⟨C0, H, run⟩
        = .ok (⟨C0, H', run'⟩, expected E.base.pkt_size E.base.word_size a l) ∧ Live C0 H'
  | [], _, H, run, _, _, h, _ => ⟨H, run, rfl, h.live⟩
  | .start t mem junk :: l, N, H, run, a, hN, h, hv => by
    obtain ⟨hv1, hv2⟩ := hv
    obtain ⟨own, hu, hd⟩ := h.under
    obtain ⟨H', r, own', e, hL', hx, ho', hr⟩ := start_spec hE (N := N) (run := run) mem junk h.live hv1
    obtain ⟨H2, run2, e2, hL2⟩ := run_spec hE l (N := N) (H := H') (run := run.push r) (a := a.push (t, 0)) (by simp at hN; omega)
      ⟨hL', by simp [h.size], fun i => if i = a.size then own' else own i, by
        intro i hi
        simp only [Array.size_push] at hi
        show Under E st mk b0 Live C0 N H' (if i = a.size then own' else own i) _ _ _
        by_cases hia : i = a.size
        · rw [if_pos hia, gt_push', gt_push', if_pos (by rw [h.size]; exact hia), if_pos hia]
          exact hr
        · rw [if_neg hia, gt_push', gt_push', if_neg (by rw [h.size]; exact hia), if_neg hia]
          exact (hu i (by omega)).frame hx.le hL' (fun b hb => hx.same b ((hu i (by omega)).2.2.1 b hb).2), by
        intro i j b hi hj h1 h2
        simp only [Array.size_push] at hi hj
        change (if i = a.size then own' else own i) b at h1
        change (if j = a.size then own' else own j) b at h2
        by_cases hia : i = a.size <;> by_cases hja : j = a.size
        · omega
        · rw [if_pos hia] at h1
          rw [if_neg hja] at h2
          have := ho' b h1
          have := ((hu j (by omega)).2.2.1 b h2).2
          omega
        · rw [if_neg hia] at h1
          rw [if_pos hja] at h2
          have := ho' b h2
          have := ((hu i (by omega)).2.2.1 b h1).2
          omega
        · rw [if_neg hia] at h1
          rw [if_neg hja] at h2
          exact hd i j b (by omega) (by omega) h1 h2⟩ (by simpa using hv2)
    refine ⟨H2, run2, ?_, hL2⟩
    show Session.run E (Act.start (t.job E.base.sys E.base.n_data) mem junk :: _) _ = _
    unfold Session.run
    rw [e, ok_bind, e2]
    rfl
  | .next i junk :: l, N, H, run, a, hN, h, hv => by
    obtain ⟨hv1, hv2⟩ := hv
    obtain ⟨own, hu, hd⟩ := h.under
    obtain ⟨M, rfl⟩ : ∃ M, N = M + 1 := ⟨N - 1, by simp at hN; omega⟩
    obtain ⟨H', r', e, hL', hon, hr⟩ := next_spec hE (N := M) junk (by rw [h.size]; exact hv1) h.live (hu i hv1)
    obtain ⟨H2, run2, e2, hL2⟩ := run_spec hE l (N := M) (H := H') (run := run.setIfInBounds i r')
      (a := a.setIfInBounds i ((gt a i).1, (gt a i).2 + 1)) (by simp at hN; omega)
      ⟨hL', by simp [h.size], own, by
        intro j hj
        simp only [Array.size_setIfInBounds] at hj
        rw [gt_set (by rw [h.size]; exact hv1), gt_set hv1]
        by_cases hji : j = i
        · rw [if_pos hji, if_pos hji, hji]
          exact hr
        · rw [if_neg hji, if_neg hji]
          refine ((hu j hj).fewer (by omega)).frame hon.1.ge hL' (fun b hb => hon.2 b ((hu j hj).2.2.1 b hb).1 (fun hb' => ?_))
          exact hji (hd j i b hj hv1 hb hb'), by
        intro i' j' b hi' hj' h1 h2
        simp only [Array.size_setIfInBounds] at hi' hj'
        exact hd i' j' b hi' hj' h1 h2⟩ (by simpa using hv2)
    refine ⟨H2, run2, ?_, hL2⟩
    show Session.run E (Act.next i junk :: _) _ = _
    unfold Session.run
    rw [e, ok_bind]
    simp only
    rw [e2, ok_bind]
    rfl

end FecV
end Quad
