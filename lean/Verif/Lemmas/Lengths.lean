import Verif.Spec.Lengths
import Verif.Lemmas.FecAny
import Verif.Lemmas.CApiSim

/-!
# Packets of streams of different lengths

Coding streams of any lengths is coding the streams cut or completed to whole packets, of which fewer bytes are written.
-/

namespace Quad
open Spec

theorem exists_lastShort (buf : Nat) {count : Nat} (h : 0 < count) (len : Nat → Nat) : ∃ j, LastShort buf count len j := by
  induction count with
  | zero => omega
  | succ n ih =>
    rcases Nat.eq_zero_or_pos n with rfl | hn
    · exact ⟨0, by omega, fun i hi => by rw [show i = 0 by omega], fun i h1 h2 => by omega⟩
    · obtain ⟨j, h1, h2, h3⟩ := ih hn
      by_cases hc : len n / buf ≤ len j / buf
      · refine ⟨n, by omega, fun i hi => ?_, fun i h1 h2 => by omega⟩
        rcases Nat.lt_or_ge i n with hl | hl
        · exact le_trans hc (h2 i hl)
        · rw [show i = n by omega]
      · refine ⟨j, by omega, fun i hi => ?_, fun i hi1 hi2 => ?_⟩
        · rcases Nat.lt_or_ge i n with hl | hl
          · exact h2 i hl
          · rw [show i = n by omega]; omega
        · rcases Nat.lt_or_ge i n with hl | hl
          · exact h3 i hi1 hl
          · rw [show i = n by omega]; omega

theorem fit_length (n : Nat) (s : List Nat) : (fit n s).length = n := by
  unfold fit; rw [List.length_append, List.length_take, List.length_replicate]; omega

theorem fit_bytes {n : Nat} {s : List Nat} (h : ∀ x ∈ s, x < 256) : ∀ x ∈ fit n s, x < 256 := by
  intro x hx
  rcases List.mem_append.mp hx with h1 | h1
  · exact h x (List.mem_of_mem_take h1)
  · rw [List.eq_of_mem_replicate h1]; omega

theorem padPkt_fit {buf n : Nat} (s : List Nat) (h : buf ≤ n) : padPkt buf (fit n s) = padPkt buf s := by
  unfold padPkt
  rw [fit_length, show buf - n = 0 by omega]
  unfold fit
  congr 1
  rw [List.take_append, List.take_take, min_eq_left h, List.take_replicate, List.length_take, List.replicate_zero, List.append_nil]
  congr 2
  omega

theorem fit_drop {buf n : Nat} (s : List Nat) (h : buf ≤ s.length) : (fit n s).drop buf = fit (n - buf) (s.drop buf) := by
  unfold fit
  rw [List.drop_append, List.drop_take, List.drop_replicate, List.length_take, List.length_drop]
  congr 2
  omega

/-- `read_bytes` and `cont` after reading from `t` streams -/
def lastRead (buf : Nat) (len : Nat → Nat) (x : Nat × Bool) : Nat → Nat × Bool
  | 0 => x
  | t + 1 => if len t < buf then (len t, false) else lastRead buf len x t

theorem lastRead_full {buf : Nat} {len : Nat → Nat} {x : Nat × Bool} {n : Nat} (h : ∀ i, i < n → buf ≤ len i) : lastRead buf len x n = x := by
  induction n with
  | zero => rfl
  | succ n ih =>
    unfold lastRead
    rw [if_neg (by have := h n (by omega); omega), ih (fun i hi => h i (by omega))]

theorem lastRead_short {buf : Nat} {len : Nat → Nat} {x : Nat × Bool} {n j : Nat} (hj : j < n) (hs : len j < buf)
    (h : ∀ i, j < i → i < n → buf ≤ len i) : lastRead buf len x n = (len j, false) := by
  induction n with
  | zero => omega
  | succ n ih =>
    unfold lastRead
    by_cases he : j = n
    · subst he; rw [if_pos hs]
    · rw [if_neg (by have := h n (by omega) (by omega); omega), ih (by omega) (fun i h1 h2 => h i h1 (by omega))]

theorem lastRead_add {buf : Nat} {len : Nat → Nat} {x : Nat × Bool} {a b : Nat} :
    lastRead buf len x (a + b) = lastRead buf (fun i => len (a + i)) (lastRead buf len x a) b := by
  induction b with
  | zero => rfl
  | succ b ih =>
    show (if len (a + b) < buf then (len (a + b), false) else lastRead buf len x (a + b)) = (if len (a + b) < buf then (len (a + b), false) else _)
    rw [ih]

/-- one packet of each of `count` streams -/
theorem readPkts_any {buf count dst : Nat} {idx : Nat → Res Nat} {ix : Nat → Nat} {streams : Array (Option (List Nat))}
    {wc : Array (Array Nat)} {rb : Nat} {cont : Bool} {R : Nat → List Nat}
    (hidx : ∀ i, i < count → idx i = .ok (ix i)) (hinj : ∀ i j, i < count → j < count → ix i = ix j → i = j)
    (hlt : ∀ i, i < count → ix i < streams.size) (hs : ∀ i, i < count → gt streams (ix i) = some (R i))
    (hwc : dst + count ≤ wc.size) :
    ∃ streams' wc', readPkts buf count dst idx (streams, wc, rb, cont)
        = .ok (streams', wc', lastRead buf (fun i => (R i).length) (rb, cont) count) ∧
      streams'.size = streams.size ∧ wc'.size = wc.size ∧
      (∀ i, i < count → gt streams' (ix i) = some ((R i).drop buf)) ∧
      (∀ i, i < count → gt wc' (dst + i) = padPkt buf (R i)) ∧
      (∀ j, j < dst ∨ dst + count ≤ j → gt wc' j = gt wc j) := by
  obtain ⟨s, e, h1, h2, h3, h5, h6, h7, _⟩ := forN_inv (n := count) (s := (streams, wc, rb, cont))
    (f := fun i (s : Array (Option (List Nat)) × Array (Array Nat) × Nat × Bool) => do
      let j ← idx i
      let st ← rd s.1 j
      match st with
      | none => ub
      | some st => do
        let r := readPkt buf st
        let wc ← wr s.2.1 (dst + i) r.1
        let streams ← wr s.1 j (some r.2.1)
        match r.2.2 with
        | some g => pure (streams, wc, g, false)
        | none => pure (streams, wc, s.2.2.1, s.2.2.2))
    (I := fun t (s : Array (Option (List Nat)) × Array (Array Nat) × Nat × Bool) =>
      s.1.size = streams.size ∧ s.2.1.size = wc.size ∧ s.2.2 = lastRead buf (fun i => (R i).length) (rb, cont) t ∧
      (∀ i, i < t → gt s.1 (ix i) = some ((R i).drop buf)) ∧
      (∀ i, i < t → gt s.2.1 (dst + i) = padPkt buf (R i)) ∧
      (∀ j, j < dst ∨ dst + count ≤ j → gt s.2.1 j = gt wc j) ∧
      (∀ i, t ≤ i → i < count → gt s.1 (ix i) = some (R i)))
    ⟨rfl, rfl, rfl, by simp, by simp, fun _ _ => rfl, fun i _ hi => hs i hi⟩ (by
      rintro t ⟨ss, ws, b, c⟩ ht ⟨i1, i2, i3, i5, i6, i7, i8⟩
      simp only at i1 i2 i3 i5 i6 i7 i8
      have hl := hlt t ht
      simp only [hidx t ht, ok_bind]
      rw [rd_gt (a := ss) (by omega), ok_bind, i8 t le_rfl ht]
      simp only [readPkt_eq]
      rw [wr_ok (by omega), ok_bind, wr_ok (by omega), ok_bind]
      have key : ∀ (x : Nat × Bool), x = lastRead buf (fun i => (R i).length) (rb, cont) (t + 1) →
          ∃ s', (pure (ss.setIfInBounds (ix t) (some ((R t).drop buf)),
            ws.setIfInBounds (dst + t) (padPkt buf (R t)), x) : Res _) = .ok s' ∧
          (s'.1.size = streams.size ∧ s'.2.1.size = wc.size ∧ s'.2.2 = lastRead buf (fun i => (R i).length) (rb, cont) (t + 1) ∧
            (∀ i, i < t + 1 → gt s'.1 (ix i) = some ((R i).drop buf)) ∧
            (∀ i, i < t + 1 → gt s'.2.1 (dst + i) = padPkt buf (R i)) ∧
            (∀ j, j < dst ∨ dst + count ≤ j → gt s'.2.1 j = gt wc j) ∧
            (∀ i, t + 1 ≤ i → i < count → gt s'.1 (ix i) = some (R i))) := by
        intro x hx
        refine ⟨_, rfl, by simp [i1], by simp [i2], hx, ?_, ?_, ?_, ?_⟩
        · intro i hi
          simp only
          rw [gt_set (by omega)]
          by_cases h : i = t
          · subst h; rw [if_pos rfl]
          · rw [if_neg (fun he => h (hinj i t (by omega) ht he))]; exact i5 i (by omega)
        · intro i hi
          simp only
          rw [gt_set (by omega)]
          by_cases h : i = t
          · subst h; rw [if_pos rfl]
          · rw [if_neg (by omega)]; exact i6 i (by omega)
        · intro j hj
          simp only
          rw [gt_set (by omega), if_neg (by omega)]; exact i7 j hj
        · intro i hi hic
          simp only
          rw [gt_set (by omega), if_neg (fun he => by have := hinj i t hic ht he; omega)]
          exact i8 i (by omega) hic
      by_cases hlt : (R t).length < buf
      · simp only [if_pos hlt]
        exact key ((R t).length, false) (by simp only [lastRead]; rw [if_pos hlt])
      · simp only [if_neg hlt]
        exact key (b, c) (by simp only [lastRead]; rw [if_neg hlt, i3]))
  refine ⟨s.1, s.2.1, ?_, h1, h2, h5, h6, h7⟩
  rw [← h3]
  exact e

/-- writing fewer bytes of the same packets -/
theorem writePkts_less {N a b : Nat} {oc : Array (Array Nat)} {outs r : Array (Option (List Nat))} (h : writePkts N b oc outs = .ok r) (hab : a ≤ b) :
    ∃ r', writePkts N a oc outs = .ok r' ∧ r'.size = r.size ∧ r.size = outs.size ∧
      (∀ i, i < N → (gt r i).map List.length = (gt outs i).map (fun s => s.length + b) ∧
        ∀ s, gt outs i = some s → gt r' i = (gt r i).map (List.take (s.length + a))) ∧
      (∀ i, gt outs i = none → gt r i = none ∧ gt r' i = none) ∧ ∀ i, N ≤ i → gt r i = gt outs i ∧ gt r' i = gt outs i := by
  unfold writePkts at h ⊢
  obtain ⟨r', e, h1, h2, h3, h4, h5⟩ := CApi.forN_sim (g := fun i outs => do
      let o ← rd outs i
      match o with
      | none => pure outs
      | some s => do
        let c ← rd oc i
        if a ≤ c.size then wr outs i (some (s ++ (c.extract 0 a).toList)) else ub)
    (Rel := fun t (r r' : Array (Option (List Nat))) => r'.size = r.size ∧ r.size = outs.size ∧
      (∀ i, i < t → (gt r i).map List.length = (gt outs i).map (fun s => s.length + b) ∧
        ∀ s, gt outs i = some s → gt r' i = (gt r i).map (List.take (s.length + a))) ∧
      (∀ i, gt outs i = none → gt r i = none ∧ gt r' i = none) ∧ ∀ i, t ≤ i → gt r i = gt outs i ∧ gt r' i = gt outs i)
    (t := outs) h ⟨rfl, rfl, by simp, fun i hi => ⟨hi, hi⟩, fun i _ => ⟨rfl, rfl⟩⟩ (by
      rintro t r r' s'' ht ⟨i1, i2, i3, i4, i5⟩ hs
      obtain ⟨o, e1, hs⟩ := bind_ok hs
      have htr : t < r.size := by
        by_contra hh
        unfold rd at e1
        rw [Array.getElem?_eq_none (by omega)] at e1
        cases e1
      rw [rd_gt htr] at e1
      have e1 := Except.ok.inj e1
      rw [rd_gt (by omega), ok_bind, (i5 t le_rfl).2, ← (i5 t le_rfl).1, e1]
      cases o with
      | none =>
        have := Except.ok.inj hs
        subst this
        refine ⟨r', rfl, i1, i2, fun i hi => ?_, i4, fun i hi => i5 i (by omega)⟩
        by_cases he : i = t
        · subst he
          have h0 : gt outs i = none := by rw [← (i5 i le_rfl).1, e1]
          rw [e1, h0]
          exact ⟨rfl, fun s hs => by cases hs⟩
        · exact i3 i (by omega)
      | some s =>
        simp only at hs ⊢
        obtain ⟨c, e2, hs⟩ := bind_ok hs
        rw [e2, ok_bind]
        split at hs
        case isFalse => cases hs
        rename_i hcb
        rw [if_pos (by omega), wr_ok (by omega)]
        rw [wr_ok htr] at hs
        have := Except.ok.inj hs
        subst this
        have h0 : gt outs t = some s := by rw [← (i5 t le_rfl).1, e1]
        refine ⟨_, rfl, by simp [i1], by simp [i2], fun i hi => ?_, fun i hi => ?_, fun i hi => ?_⟩
        · rw [gt_set (by omega), gt_set (by omega)]
          by_cases he : i = t
          · subst he
            rw [if_pos rfl, if_pos rfl, h0]
            refine ⟨?_, ?_⟩
            · simp only [Option.map_some, List.length_append, Array.length_toList, Array.size_extract]
              congr 1; omega
            · rintro _ ⟨⟩
              simp only [Option.map_some]
              congr 1
              rw [List.take_append, List.take_of_length_le (by omega)]
              congr 1
              simp only [Array.toList_extract, List.extract_eq_take_drop, List.drop_zero, Nat.sub_zero, List.take_take]
              congr 1; omega
          · rw [if_neg he, if_neg he]; exact i3 i (by omega)
        · have : i ≠ t := by rintro rfl; rw [h0] at hi; cases hi
          rw [gt_set (by omega), gt_set (by omega), if_neg this, if_neg this]; exact i4 i hi
        · rw [gt_set (by omega), gt_set (by omega), if_neg (by omega), if_neg (by omega)]; exact i5 i (by omega))
  exact ⟨r', e, h1, h2, h3, h4, h5⟩

/-- of what `o` has more than `outs`, `o'` has the first `a` bytes -/
structure Cut (N a : Nat) (outs o o' : Array (Option (List Nat))) : Prop where
  size : o.size = outs.size
  size' : o'.size = outs.size
  some : ∀ i s, i < N → gt outs i = some s → gt o' i = (gt o i).map (List.take (s.length + a))
  none : ∀ i, gt outs i = none → gt o i = none ∧ gt o' i = none
  rest : ∀ i, N ≤ i → gt o i = gt outs i ∧ gt o' i = gt outs i

theorem Cut.refl (N : Nat) (outs : Array (Option (List Nat))) : Cut N 0 outs outs outs :=
  ⟨rfl, rfl, fun i s _ h => by rw [h, Nat.add_zero, Option.map_some, List.take_length], fun _ h => ⟨h, h⟩, fun _ _ => ⟨rfl, rfl⟩⟩

theorem writePkts_cut {N a b : Nat} {oc : Array (Array Nat)} {outs r : Array (Option (List Nat))} (h : writePkts N b oc outs = .ok r) (hab : a ≤ b) :
    ∃ r', writePkts N a oc outs = .ok r' ∧ Cut N a outs r r' := by
  obtain ⟨r', e, h1, h2, h3, h4, h5⟩ := writePkts_less h hab
  exact ⟨r', e, h2, by omega, fun i s hi hs => (h3 i hi).2 s hs, h4, h5⟩

theorem Cut.step {N a b : Nat} {oc : Array (Array Nat)} {outs r o o' : Array (Option (List Nat))} (h : writePkts N b oc outs = .ok r) (hc : Cut N a r o o') :
    Cut N (b + a) outs o o' := by
  obtain ⟨r', e, h1, h2, h3, h4, h5⟩ := writePkts_less h (Nat.zero_le b)
  refine ⟨by rw [hc.size, h2], by rw [hc.size', h2], fun i s hi hs => ?_, fun i hi => hc.none i (h4 i hi).1, fun i hi => ?_⟩
  · have := (h3 i hi).1
    rw [hs, Option.map_some, Option.map_eq_some_iff] at this
    obtain ⟨x, hx, hl⟩ := this
    rw [hc.some i x hi hx, hl, Nat.add_assoc]
  · rw [← (h5 i hi).1]; exact hc.rest i hi

/-- length that the streams are cut or completed to, with `P` full packets and `g` bytes more -/
def fitLen (buf P g : Nat) : Nat := if g = 0 then P * buf else (P + 1) * buf

theorem fitLen_succ (buf P g : Nat) : fitLen buf (P + 1) g = fitLen buf P g + buf := by
  unfold fitLen; split <;> ring

namespace FecV

theorem encStep_chars {E : FecV} {words output : Bufs} {off : Nat} {s s' : EncSt} (h : E.encStep words output off s = .ok s') :
    s'.words_char = s.words_char := by
  unfold encStep at h
  obtain ⟨H, _, h⟩ := bind_ok h
  obtain ⟨⟨enc, H', p⟩, _, h⟩ := bind_ok h
  obtain ⟨oc, _, h⟩ := bind_ok h
  exact (Except.ok.inj h) ▸ rfl

theorem encLoop_fit {E : FecV} (hb : 0 < E.buf_size) {words output : Bufs} {j g : Nat} (hj : j < E.base.n_data) (hg : g < E.buf_size) (P : Nat) :
    ∀ {fuel fuel' off : Nat} {ins ins' outs o : Array (Option (List Nat))} {s s' : EncSt} {S : Nat → List Nat},
      P < fuel → ins.size = E.base.n_data → ins'.size = E.base.n_data → s.words_char.size = E.base.n_data →
      (S j).length = P * E.buf_size + g → (∀ i, i < E.base.n_data → P * E.buf_size ≤ (S i).length) →
      (∀ i, j < i → i < E.base.n_data → (P + 1) * E.buf_size ≤ (S i).length) →
      (∀ i, i < E.base.n_data → gt ins i = some (S i)) →
      (∀ i, i < E.base.n_data → gt ins' i = some (fit (fitLen E.buf_size P g) (S i))) →
      E.encLoop words output fuel' ins' outs E.buf_size off s = .ok (o, s') →
      ∃ o' s'', E.encLoop words output fuel ins outs E.buf_size off s = .ok (o', s'') ∧ s''.enc = s'.enc ∧ s''.H = s'.H ∧ s''.props = s'.props ∧
        Cut E.base.n_outputs (P * E.buf_size + g) outs o o' := by
  induction P with
  | zero =>
    intro fuel fuel' off ins ins' outs o s s' S hf hi hi' hw hlj hl hlast hin hin' h
    obtain ⟨fuel, rfl⟩ : ∃ f, fuel = f + 1 := ⟨fuel - 1, by omega⟩
    have hk : 0 < E.base.n_data := by omega
    rw [Nat.zero_mul, Nat.zero_add] at hlj ⊢
    obtain ⟨is, wc, e, _, q2, _, q4, _⟩ := readPkts_any (buf := E.buf_size) (count := E.base.n_data) (dst := 0) (idx := fun i => .ok i) (ix := id)
      (streams := ins) (wc := s.words_char) (rb := E.buf_size) (cont := true) (R := S) (fun i _ => rfl) (fun i j _ _ h => h)
      (fun i hi => by simp only [id]; omega) hin (by omega)
    rw [lastRead_short hj (by rw [hlj]; exact hg) (fun i h1 h2 => by have := hlast i h1 h2; omega), hlj] at e
    cases fuel' with
    | zero => cases h
    | succ fuel' =>
    obtain ⟨is', wc', e', p1, p2, p3, p4, _⟩ := readPkts_any (buf := E.buf_size) (count := E.base.n_data) (dst := 0) (idx := fun i => .ok i) (ix := id)
      (streams := ins') (wc := s.words_char) (rb := E.buf_size) (cont := true) (R := fun i => fit (fitLen E.buf_size 0 g) (S i)) (fun i _ => rfl)
      (fun i j _ _ h => h) (fun i hi => by simp only [id]; omega) hin' (by omega)
    simp only [fit_length] at e'
    unfold encLoop at h ⊢
    rw [e, ok_bind]
    rw [e', ok_bind] at h
    by_cases hg0 : g = 0
    · subst hg0
      rw [show fitLen E.buf_size 0 0 = 0 by simp [fitLen], lastRead_short (j := E.base.n_data - 1) (by omega) hb (fun i h1 h2 => by omega)] at h
      simp only [if_true] at h ⊢
      have h := Except.ok.inj h
      injection h with h1 h2
      subst h1; subst h2
      exact ⟨_, _, rfl, rfl, rfl, rfl, Cut.refl _ _⟩
    · have hfl : fitLen E.buf_size 0 g = E.buf_size := by simp [fitLen, hg0]
      rw [hfl, lastRead_full (fun i _ => le_rfl)] at h
      simp only [hfl, id] at p3 p4
      have hwc : wc = wc' := gt_ext (by omega) (fun i hi => by
        have h1 := q4 i (by omega)
        have h2 := p4 i (by omega)
        rw [Nat.zero_add] at h1 h2
        rw [h1, h2, padPkt_fit _ le_rfl])
      subst hwc
      simp only [if_neg hg0, if_neg hb.ne'] at h ⊢
      obtain ⟨s1, e1, h⟩ := bind_ok h
      obtain ⟨r, e2, h⟩ := bind_ok h
      rw [if_pos trivial] at h
      rw [e1, ok_bind]
      obtain ⟨r', e3, hc⟩ := writePkts_cut e2 hg.le
      rw [e3, ok_bind]
      cases fuel' with
      | zero => cases h
      | succ fuel' =>
      unfold encLoop at h
      have hw1 := encStep_chars e1
      obtain ⟨is2, wc2, e4, _⟩ := readPkts_any (buf := E.buf_size) (count := E.base.n_data) (dst := 0) (idx := fun i => .ok i) (ix := id)
        (streams := is') (wc := s1.words_char) (rb := E.buf_size) (cont := true) (R := fun i => []) (fun i _ => rfl)
        (fun i j _ _ h => h) (fun i hi => by simp only [id]; omega) (fun i hi => by
          simp only [id]; rw [p3 i hi, List.drop_of_length_le (by rw [fit_length])]) (by rw [hw1]; show 0 + _ ≤ wc.size; omega)
      rw [e4, ok_bind, lastRead_short (j := E.base.n_data - 1) (by omega) (by simpa using hb) (fun i h1 h2 => by omega)] at h
      simp only [List.length_nil, if_true] at h
      have h := Except.ok.inj h
      injection h with h1 h2
      subst h1; subst h2
      exact ⟨r', s1, rfl, rfl, rfl, rfl, hc⟩
  | succ P ih =>
    intro fuel fuel' off ins ins' outs o s s' S hf hi hi' hw hlj hl hlast hin hin' h
    obtain ⟨fuel, rfl⟩ : ∃ f, fuel = f + 1 := ⟨fuel - 1, by omega⟩
    have hPb : (P + 1) * E.buf_size = P * E.buf_size + E.buf_size := by rw [Nat.add_mul, Nat.one_mul]
    have hPb' : (P + 1 + 1) * E.buf_size = (P + 1) * E.buf_size + E.buf_size := by rw [Nat.add_mul, Nat.one_mul]
    have hfl := fitLen_succ E.buf_size P g
    obtain ⟨is, wc, e, q1, q2, q3, q4, _⟩ := readPkts_any (buf := E.buf_size) (count := E.base.n_data) (dst := 0) (idx := fun i => .ok i) (ix := id)
      (streams := ins) (wc := s.words_char) (rb := E.buf_size) (cont := true) (R := S) (fun i _ => rfl) (fun i j _ _ h => h)
      (fun i hi => by simp only [id]; omega) hin (by omega)
    rw [lastRead_full (fun i hi => by have := hl i hi; omega)] at e
    cases fuel' with
    | zero => cases h
    | succ fuel' =>
    obtain ⟨is', wc', e', p1, p2, p3, p4, _⟩ := readPkts_any (buf := E.buf_size) (count := E.base.n_data) (dst := 0) (idx := fun i => .ok i) (ix := id)
      (streams := ins') (wc := s.words_char) (rb := E.buf_size) (cont := true) (R := fun i => fit (fitLen E.buf_size (P + 1) g) (S i)) (fun i _ => rfl)
      (fun i j _ _ h => h) (fun i hi => by simp only [id]; omega) hin' (by omega)
    rw [lastRead_full (fun i _ => by rw [fit_length, hfl]; omega)] at e'
    simp only [id] at q3 p3
    have hwc : wc = wc' := gt_ext (by omega) (fun i hi => by
      have h1 := q4 i (by omega)
      have h2 := p4 i (by omega)
      rw [Nat.zero_add] at h1 h2
      rw [h1, h2, padPkt_fit _ (by omega)])
    subst hwc
    unfold encLoop at h ⊢
    rw [e, ok_bind]
    rw [e', ok_bind] at h
    simp only [if_neg hb.ne'] at h ⊢
    obtain ⟨s1, e1, h⟩ := bind_ok h
    obtain ⟨r, e2, h⟩ := bind_ok h
    rw [if_pos trivial] at h
    rw [e1, ok_bind, e2, ok_bind, if_pos trivial]
    have hw1 := encStep_chars e1
    obtain ⟨o', s'', e5, z1, z2, z3, z4⟩ := ih (fuel := fuel) (S := fun i => (S i).drop E.buf_size) (by omega) (by omega) (by omega)
      (by rw [hw1]; show wc.size = _; omega) (by rw [List.length_drop, hlj]; omega)
      (fun i hi => by have := hl i hi; rw [List.length_drop]; omega)
      (fun i h1 h2 => by have := hlast i h1 h2; rw [List.length_drop]; omega) (fun i hi => q3 i hi)
      (fun i hi => by rw [p3 i hi, fit_drop _ (by have := hl i hi; omega), hfl, Nat.add_sub_cancel]) h
    exact ⟨o', s'', e5, z1, z2, z3, by rw [show (P + 1) * E.buf_size + g = E.buf_size + (P * E.buf_size + g) by omega]; exact Cut.step e2 z4⟩

theorem wholePkts_eq {buf : Nat} (hb : 0 < buf) (L : Nat) : wholePkts buf L = fitLen buf (L / buf) (L % buf) := by
  unfold wholePkts fitLen
  congr 1
  have h1 := Nat.div_add_mod L buf
  have h2 := Nat.mod_lt L hb
  by_cases h : L % buf = 0
  · rw [if_pos h]
    rw [show L + buf - 1 = (buf - 1) + buf * (L / buf) by omega, Nat.add_mul_div_left _ _ hb, Nat.div_eq_of_lt (by omega), Nat.zero_add]
  · rw [if_neg h]
    rw [show L + buf - 1 = (L % buf - 1) + buf * (L / buf + 1) by rw [Nat.mul_add]; omega, Nat.add_mul_div_left _ _ hb, Nat.div_eq_of_lt (by omega), Nat.zero_add]

/-- encoding streams of any lengths -/
theorem encode_streams_vertical_fit {E : FecV} (hb : 0 < E.buf_size) {enc C : CtxB} {data outs : Array (List Nat)} {props p : Array Properties}
    {junk : Nat → Nat → Nat} {H H' : Heap} {o : Array (Option (List Nat))} {j : Nat}
    (hj : LastShort E.buf_size E.base.n_data (fun i => (gt data i).length) j)
    (h : E.encode_streams_vertical enc (data.map (fit (wholePkts E.buf_size (gt data j).length))) outs props junk H = .ok (o, p, C, H')) :
    ∃ o', E.encode_streams_vertical enc data outs props junk H = .ok (o', p, C, H') ∧
      Cut E.base.n_outputs (gt data j).length (outs.map some) o o' := by
  unfold encode_streams_vertical at h ⊢
  rw [Array.size_map] at h
  obtain ⟨_, c1, h⟩ := bind_ok h
  rw [c1, ok_bind]
  obtain ⟨_, c2, h⟩ := bind_ok h
  rw [c2, ok_bind]
  obtain ⟨_, c3, h⟩ := bind_ok h
  rw [c3, ok_bind]
  have hk : data.size = E.base.n_data := by
    by_contra hh
    rw [decide_eq_false hh] at c1
    cases c1
  simp only at h ⊢
  obtain ⟨⟨o1, s1⟩, e, h⟩ := bind_ok h
  have h := Except.ok.inj h
  injection h with h1 h2
  injection h2 with h2 h3
  injection h3 with h3 h4
  have hd := Nat.div_add_mod (gt data j).length E.buf_size
  rw [Nat.mul_comm] at hd
  have hmul : ∀ {a i}, a ≤ (gt data i).length / E.buf_size → a * E.buf_size ≤ (gt data i).length := fun h =>
    le_trans (Nat.mul_le_mul_right _ h) (Nat.div_mul_le_self _ _)
  obtain ⟨o', s', e', z1, z2, z3, z4⟩ := encLoop_fit hb hj.lt (Nat.mod_lt (gt data j).length hb) ((gt data j).length / E.buf_size)
    (S := gt data) (fuel := (gt data 0).length + 2) (ins := data.map some) (by
      have h1 := hj.fewest 0 (by have := hj.lt; omega)
      have h2 := Nat.div_le_self (gt data 0).length E.buf_size
      omega) (by simpa using hk) (by simpa using hk) (by simp [freshChars]) hd.symm (fun i hi => hmul (hj.fewest i hi))
    (fun i h1 h2 => hmul (hj.last i h1 h2)) (fun i hi => by rw [gt_map (by omega)])
    (fun i hi => by rw [gt_map (by simpa [hk] using hi), gt_map (by omega), wholePkts_eq hb]) e
  rw [e', ok_bind]
  refine ⟨o', ?_, by rw [← h1, ← hd]; exact z4⟩
  rw [← h2, ← h3, ← h4, ← z1, ← z2, ← z3]
  rfl

theorem decStep_chars {E : FecV} {words output : Bufs} {props : Array Properties} {off : Nat} {s s' : DecSt}
    (h : E.decStep words output props off s = .ok s') : s'.words_char = s.words_char := by
  unfold decStep at h
  obtain ⟨H, _, h⟩ := bind_ok h
  obtain ⟨⟨C, H'⟩, _, h⟩ := bind_ok h
  obtain ⟨oc, _, h⟩ := bind_ok h
  exact (Except.ok.inj h) ▸ rfl

/-- the streams chosen for decoding: `S i` is what is left of the `i`-th -/
structure Picks (ids apar : Array Nat) (nd k : Nat) (datas pars : Array (Option (List Nat))) (S : Nat → List Nat) : Prop where
  data : ∀ i, i < nd → gt ids i < datas.size ∧ gt datas (gt ids i) = some (S i)
  par : ∀ i, i < k - nd → gt apar i < pars.size ∧ gt pars (gt apar i) = some (S (nd + i))

/-- a packet of each chosen stream -/
theorem readTwo {buf k nd rb : Nat} {sys : Bool} {ids apar : Array Nat} (hnd : nd ≤ k) (hnd0 : sys = false → nd = 0)
    (hids : ∀ i j, i < nd → j < nd → gt ids i = gt ids j → i = j) (hidsz : nd ≤ ids.size)
    (hapar : ∀ i j, i < k - nd → j < k - nd → gt apar i = gt apar j → i = j) (haparz : k - nd ≤ apar.size)
    {datas pars : Array (Option (List Nat))} {S : Nat → List Nat} (h : Picks ids apar nd k datas pars S) {wc : Array (Array Nat)} (hwc : wc.size = k) :
    ∃ datas' wc1 rb1 c1 pars' wc2, (if sys then readPkts buf nd 0 (fun i => rd ids i) (datas, wc, rb, true)
            else pure (datas, wc, rb, true)) = .ok (datas', wc1, rb1, c1) ∧
        readPkts buf (k - nd) nd (fun i => rd apar i) (pars, wc1, rb1, c1)
          = .ok (pars', wc2, lastRead buf (fun i => (S i).length) (rb, true) k) ∧
        wc2 = Array.ofFn (fun i : Fin k => padPkt buf (S i)) ∧ Picks ids apar nd k datas' pars' (fun i => (S i).drop buf) := by
  obtain ⟨datas', wc1, x, e1, z1, z2, hx, r1, r2⟩ : ∃ datas' wc1 x,
      (if sys then readPkts buf nd 0 (fun i => rd ids i) (datas, wc, rb, true) else pure (datas, wc, rb, true)) = .ok (datas', wc1, x) ∧
      datas'.size = datas.size ∧ wc1.size = wc.size ∧ x = lastRead buf (fun i => (S i).length) (rb, true) nd ∧
      (∀ i, i < nd → gt datas' (gt ids i) = some ((S i).drop buf)) ∧ ∀ i, i < nd → gt wc1 i = padPkt buf (S i) := by
    by_cases hs : sys = true
    · rw [if_pos hs]
      obtain ⟨a, b, e, z1, z2, z3, z4, _⟩ := readPkts_any (buf := buf) (count := nd) (dst := 0) (idx := fun i => rd ids i) (ix := fun i => gt ids i)
        (streams := datas) (wc := wc) (rb := rb) (cont := true) (R := S) (fun i hi => rd_gt (by omega)) hids (fun i hi => (h.data i hi).1)
        (fun i hi => (h.data i hi).2) (by omega)
      exact ⟨a, b, _, e, z1, z2, rfl, z3, fun i hi => by have := z4 i hi; rwa [Nat.zero_add] at this⟩
    · rw [if_neg hs]
      have : nd = 0 := hnd0 (by simpa using hs)
      subst this
      exact ⟨datas, wc, _, rfl, rfl, rfl, rfl, by simp, by simp⟩
  obtain ⟨rb1, c1⟩ := x
  obtain ⟨a, b, e, y1, y2, y3, y4, y5⟩ := readPkts_any (buf := buf) (count := k - nd) (dst := nd)
        (idx := fun i => rd apar i) (ix := fun i => gt apar i) (streams := pars) (wc := wc1) (rb := rb1) (cont := c1)
        (R := fun i => S (nd + i)) (fun i hi => rd_gt (by omega)) hapar (fun i hi => (h.par i hi).1)
        (fun i hi => (h.par i hi).2) (by omega)
  refine ⟨datas', wc1, rb1, c1, a, b, e1, ?_, ?_, fun i hi => ⟨by rw [z1]; exact (h.data i hi).1, r1 i hi⟩,
    fun i hi => ⟨by rw [y1]; exact (h.par i hi).1, y3 i hi⟩⟩
  · rw [e, hx]
    have := lastRead_add (buf := buf) (len := fun i => (S i).length) (x := (rb, true)) (a := nd) (b := k - nd)
    rw [show nd + (k - nd) = k by omega] at this
    rw [this]
  · refine gt_ext (by simp; omega) (fun i hi => ?_)
    have hik : i < k := by omega
    rw [gt_ofFn hik]
    rcases Nat.lt_or_ge i nd with hlt | hge
    · rw [y5 i (.inl hlt), r2 i hlt]
    · have := y4 (i - nd) (by omega)
      rw [show nd + (i - nd) = i by omega] at this
      exact this

theorem decLoop_fit {E : FecV} (hb : 0 < E.buf_size) {words output : Bufs} {ids apar : Array Nat} {nd : Nat} {props : Array Properties}
    (hnd : nd ≤ E.base.n_data) (hnd0 : E.base.sys = false → nd = 0)
    (hids : ∀ i j, i < nd → j < nd → gt ids i = gt ids j → i = j) (hidsz : nd ≤ ids.size)
    (hapar : ∀ i j, i < E.base.n_data - nd → j < E.base.n_data - nd → gt apar i = gt apar j → i = j) (haparz : E.base.n_data - nd ≤ apar.size)
    {j g : Nat} (hj : j < E.base.n_data) (hg : g < E.buf_size) (P : Nat) :
    ∀ {fuel fuel' off : Nat} {datas datas' pars pars' outs o : Array (Option (List Nat))} {s : DecSt} {H' : Heap} {S : Nat → List Nat},
      P < fuel → s.words_char.size = E.base.n_data →
      (S j).length = P * E.buf_size + g → (∀ i, i < E.base.n_data → P * E.buf_size ≤ (S i).length) →
      (∀ i, j < i → i < E.base.n_data → (P + 1) * E.buf_size ≤ (S i).length) →
      Picks ids apar nd E.base.n_data datas pars S →
      Picks ids apar nd E.base.n_data datas' pars' (fun i => fit (fitLen E.buf_size P g) (S i)) →
      E.decLoop words output ids apar nd props fuel' datas' pars' outs E.buf_size off s = .ok (o, H') →
      ∃ o', E.decLoop words output ids apar nd props fuel datas pars outs E.buf_size off s = .ok (o', H') ∧
        Cut E.base.n_data (P * E.buf_size + g) outs o o' := by
  have hk : 0 < E.base.n_data := by omega
  have key : ∀ {S S' : Nat → List Nat}, (∀ i, i < E.base.n_data → padPkt E.buf_size (S i) = padPkt E.buf_size (S' i)) →
      Array.ofFn (fun i : Fin E.base.n_data => padPkt E.buf_size (S i)) = Array.ofFn (fun i : Fin E.base.n_data => padPkt E.buf_size (S' i)) :=
    fun h => by congr 1; funext i; exact h i i.2
  induction P with
  | zero =>
    intro fuel fuel' off datas datas' pars pars' outs o s H' S hf hw hlj hl hlast hp hp' h
    obtain ⟨fuel, rfl⟩ : ∃ f, fuel = f + 1 := ⟨fuel - 1, by omega⟩
    rw [Nat.zero_mul, Nat.zero_add] at hlj ⊢
    obtain ⟨d1, w1, r1, c1, p1, w2, e1, e2, ew, _⟩ := readTwo (buf := E.buf_size) (rb := E.buf_size) hnd hnd0 hids hidsz hapar haparz hp hw
    rw [lastRead_short hj (by rw [hlj]; exact hg) (fun i h1 h2 => by have := hlast i h1 h2; omega), hlj] at e2
    cases fuel' with
    | zero => cases h
    | succ fuel' =>
    obtain ⟨d1', w1', r1', c1', p1', w2', e1', e2', ew', hq'⟩ := readTwo (buf := E.buf_size) (rb := E.buf_size) hnd hnd0 hids hidsz hapar haparz hp' hw
    simp only [fit_length] at e2'
    unfold decLoop at h ⊢
    rw [e1, ok_bind]
    rw [e1', ok_bind] at h
    simp only at h ⊢
    rw [e2, ok_bind]
    rw [e2', ok_bind] at h
    by_cases hg0 : g = 0
    · subst hg0
      rw [show fitLen E.buf_size 0 0 = 0 by simp [fitLen], lastRead_short (j := E.base.n_data - 1) (by omega) hb (fun i h1 h2 => by omega)] at h
      simp only [if_true] at h ⊢
      have h := Except.ok.inj h
      injection h with h1 h2
      subst h1; subst h2
      exact ⟨_, rfl, Cut.refl _ _⟩
    · have hfl : fitLen E.buf_size 0 g = E.buf_size := by simp [fitLen, hg0]
      rw [hfl, lastRead_full (fun i _ => le_rfl)] at h
      have hwc : w2 = w2' := by
        rw [ew, ew']
        exact key (S := S) (S' := fun i => fit (fitLen E.buf_size 0 g) (S i)) (fun i _ => (padPkt_fit _ (by rw [hfl])).symm)
      subst hwc
      simp only [if_neg hg0, if_neg hb.ne'] at h ⊢
      obtain ⟨s1, e3, h⟩ := bind_ok h
      obtain ⟨r, e4, h⟩ := bind_ok h
      rw [if_pos trivial] at h
      rw [e3, ok_bind]
      obtain ⟨r', e5, hc⟩ := writePkts_cut e4 hg.le
      rw [e5, ok_bind]
      cases fuel' with
      | zero => cases h
      | succ fuel' =>
      unfold decLoop at h
      have hw1 := decStep_chars e3
      obtain ⟨d3, w3, r3, c3, p3, w4, e6, e7, _⟩ := readTwo (buf := E.buf_size) (rb := E.buf_size) hnd hnd0 hids hidsz hapar haparz hq'
        (wc := s1.words_char) (by rw [hw1]; show w2.size = _; rw [ew]; simp)
      rw [lastRead_short (j := E.base.n_data - 1) (by omega) (by simp only [List.length_drop, fit_length]; omega) (fun i h1 h2 => by omega)] at e7
      rw [e6, ok_bind] at h
      simp only at h
      rw [e7, ok_bind] at h
      simp only [List.length_drop, fit_length, hfl, Nat.sub_self, if_true] at h
      have h := Except.ok.inj h
      injection h with h1 h2
      subst h1; subst h2
      exact ⟨r', rfl, hc⟩
  | succ P ih =>
    intro fuel fuel' off datas datas' pars pars' outs o s H' S hf hw hlj hl hlast hp hp' h
    obtain ⟨fuel, rfl⟩ : ∃ f, fuel = f + 1 := ⟨fuel - 1, by omega⟩
    have hPb : (P + 1) * E.buf_size = P * E.buf_size + E.buf_size := by rw [Nat.add_mul, Nat.one_mul]
    have hPb' : (P + 1 + 1) * E.buf_size = (P + 1) * E.buf_size + E.buf_size := by rw [Nat.add_mul, Nat.one_mul]
    have hfl := fitLen_succ E.buf_size P g
    obtain ⟨d1, w1, r1, c1, p1, w2, e1, e2, ew, hq⟩ := readTwo (buf := E.buf_size) (rb := E.buf_size) hnd hnd0 hids hidsz hapar haparz hp hw
    rw [lastRead_full (fun i hi => by have := hl i hi; omega)] at e2
    cases fuel' with
    | zero => cases h
    | succ fuel' =>
    obtain ⟨d1', w1', r1', c1', p1', w2', e1', e2', ew', hq'⟩ := readTwo (buf := E.buf_size) (rb := E.buf_size) hnd hnd0 hids hidsz hapar haparz hp' hw
    rw [lastRead_full (fun i _ => by rw [fit_length, hfl]; omega)] at e2'
    have hwc : w2 = w2' := by
      rw [ew, ew']
      exact key (S := S) (S' := fun i => fit (fitLen E.buf_size (P + 1) g) (S i)) (fun i _ => (padPkt_fit _ (by rw [hfl]; omega)).symm)
    subst hwc
    unfold decLoop at h ⊢
    rw [e1, ok_bind]
    rw [e1', ok_bind] at h
    simp only at h ⊢
    rw [e2, ok_bind]
    rw [e2', ok_bind] at h
    simp only [if_neg hb.ne'] at h ⊢
    obtain ⟨s1, e3, h⟩ := bind_ok h
    obtain ⟨r, e4, h⟩ := bind_ok h
    rw [if_pos trivial] at h
    rw [e3, ok_bind, e4, ok_bind, if_pos trivial]
    have hw1 := decStep_chars e3
    obtain ⟨o', e5, z⟩ := ih (fuel := fuel) (S := fun i => (S i).drop E.buf_size) (by omega) (by rw [hw1]; show w2.size = _; rw [ew]; simp)
      (by rw [List.length_drop, hlj]; omega)
      (fun i hi => by have := hl i hi; rw [List.length_drop]; omega)
      (fun i h1 h2 => by have := hlast i h1 h2; rw [List.length_drop]; omega) hq
      ⟨fun i hi => ⟨(hq'.data i hi).1, by
          rw [(hq'.data i hi).2, fit_drop _ (by have := hl i (by omega); omega), hfl, Nat.add_sub_cancel]⟩,
        fun i hi => ⟨(hq'.par i hi).1, by
          rw [(hq'.par i hi).2, fit_drop _ (by have := hl (nd + i) (by omega); omega), hfl, Nat.add_sub_cancel]⟩⟩ h
    exact ⟨o', e5, by rw [show (P + 1) * E.buf_size + g = E.buf_size + (P * E.buf_size + g) by omega]; exact Cut.step e4 z⟩

theorem decode_streams_red {E : FecV} {datas pars outs : Array (Option (List Nat))} {props : Array Properties} (mem : Nat → Nat)
    (junk : Nat → Nat → Nat) (H : Heap) (h1 : E.base.sys = true → datas.size = E.base.n_data) (h2 : pars.size = E.base.n_outputs)
    (h3 : props.size = E.base.n_outputs) (h4 : outs.size = E.base.n_data) :
    E.decode_streams_vertical datas pars props outs mem junk H =
      (E.base.selectFragments (datas.map Option.isSome) (pars.map Option.isSome) mem >>= fun sel =>
        match sel with
        | .allData => pure (true, outs, H)
        | .tooFew => pure (false, outs, H)
        | .use ids apar nd => do
          let ids := (ids.toList.mergeSort (fun x y => decide (x ≤ y))).toArray
          let (H, words) := Bufs.full junk H E.base.n_data E.base.pkt_size
          let (H, output) := Bufs.full junk H E.base.n_data E.base.pkt_size
          let (H, C, props) ← E.init_context_dec ids props E.base.pkt_size output mem junk H
          let (outs, H) ← E.decLoop words output ids apar nd props (maxLen datas + maxLen pars + 2) datas pars outs E.buf_size 0
            ⟨C, H, freshChars junk E.base.n_data E.buf_size, freshChars junk E.base.n_data E.buf_size⟩
          pure (true, outs, H)) := by
  have hred : ∀ (f : Select → Res (Bool × Array (Option (List Nat)) × Heap)),
      (do
        if E.base.sys then cassert (decide (datas.size = E.base.n_data)) else pure ()
        cassert (decide (pars.size = E.base.n_outputs))
        cassert (decide (props.size = E.base.n_outputs))
        cassert (decide (outs.size = E.base.n_data))
        let sel ← E.base.selectFragments (datas.map Option.isSome) (pars.map Option.isSome) mem
        f sel) = (E.base.selectFragments (datas.map Option.isSome) (pars.map Option.isSome) mem >>= f) := by
    intro f
    by_cases hs : E.base.sys = true
    · simp [hs, cassert, h1 hs, h2, h3, h4]
    · simp only [hs, Bool.false_eq_true, if_false, cassert, h2, h3, h4, decide_true, if_true]
      rfl
  exact hred _

/-- the streams cut or completed to `n` bytes -/
def fitAll (n : Nat) (a : Array (Option (List Nat))) : Array (Option (List Nat)) := a.map (Option.map (fit n))

theorem fitAll_isSome (n : Nat) (a : Array (Option (List Nat))) : (fitAll n a).map Option.isSome = a.map Option.isSome := by
  unfold fitAll
  rw [Array.map_map]
  congr 1
  funext x
  cases x <;> rfl

theorem fitAll_size (n : Nat) (a : Array (Option (List Nat))) : (fitAll n a).size = a.size := Array.size_map ..

theorem fitAll_gt (n : Nat) (a : Array (Option (List Nat))) (i : Nat) : gt (fitAll n a) i = (gt a i).map (fit n) := by
  by_cases h : i < a.size
  · exact gt_map h
  · rw [gt, gt, Array.getD_eq_getD_getElem?, Array.getElem?_eq_none (by rw [fitAll_size]; omega), Array.getD_eq_getD_getElem?,
      Array.getElem?_eq_none (by omega)]
    rfl

/-- decoding streams of any lengths -/
theorem decode_streams_vertical_fit {E : FecV} (hb : 0 < E.buf_size)
    {datas pars outs o : Array (Option (List Nat))} {props : Array Properties} {mem : Nat → Nat} {junk : Nat → Nat → Nat} {H H' : Heap} {v : Bool}
    (h1 : E.base.sys = true → datas.size = E.base.n_data) (h2 : pars.size = E.base.n_outputs)
    (h3 : props.size = E.base.n_outputs) (h4 : outs.size = E.base.n_data)
    (hall : (E.base.dataList (datas.map Option.isSome)).length ≠ E.base.n_data)
    (hfew : ¬ (E.base.dataList (datas.map Option.isSome)).length + (present (pars.map Option.isSome) E.base.n_outputs).length < E.base.n_data)
    {j : Nat} {len : Nat → Nat} (hlen : ∀ i, len i = ((gt (allFrags E.base.sys datas pars)
      (gt (picked E.base.n_data (allFrags E.base.sys datas pars)).toArray i)).getD []).length)
    (hj : LastShort E.buf_size E.base.n_data len j)
    (h : E.decode_streams_vertical (fitAll (wholePkts E.buf_size (len j)) datas) (fitAll (wholePkts E.buf_size (len j)) pars) props outs mem junk H
      = .ok (v, o, H')) :
    ∃ o', E.decode_streams_vertical datas pars props outs mem junk H = .ok (v, o', H') ∧ Cut E.base.n_data (len j) outs o o' := by
  have hk : 0 < E.base.n_data := by have := hj.lt; omega
  have hsel := E.base.selectFragments_spec hk (data := datas.map Option.isSome) (parities := pars.map Option.isSome) mem
    (fun h => by simp [h1 h]) (by simp [h2])
  rw [decode_streams_red mem junk H (by rw [fitAll_size]; exact h1) (by rw [fitAll_size]; exact h2) h3 h4, fitAll_isSome, fitAll_isSome, hsel, ok_bind,
    if_neg hall, if_neg hfew] at h
  rw [decode_streams_red mem junk H h1 h2 h3 h4, hsel, ok_bind, if_neg hall, if_neg hfew]
  have hp := ids_picked E.base h1 h2
  have hc := chosen_spec E.base hall hfew
  rw [hp] at h hc ⊢
  simp only at h ⊢
  rw [hc.sorted] at h ⊢
  generalize (picked E.base.n_data (allFrags E.base.sys datas pars)).toArray = ids at hc h hlen ⊢
  generalize (E.base.parList (datas.map Option.isSome) (pars.map Option.isSome)).toArray = apar at hc h ⊢
  generalize (E.base.dataList (datas.map Option.isSome)).length = nd at hc hall hfew h ⊢
  obtain ⟨⟨H1, C, props'⟩, e1, h⟩ := bind_ok h
  rw [e1, ok_bind]
  simp only at h ⊢
  obtain ⟨⟨o1, H2⟩, e2, h⟩ := bind_ok h
  have h := Except.ok.inj h
  injection h with hv h
  injection h with ho hH
  subst hv; subst ho; subst hH
  set S : Nat → List Nat := fun i => (gt (allFrags E.base.sys datas pars) (gt ids i)).getD [] with hS
  have hpk : Picks ids apar nd E.base.n_data datas pars S := by
    refine ⟨fun i hi => ?_, fun i hi => ?_⟩
    · obtain ⟨q1, q2, q3⟩ := hc.data i hi
      obtain ⟨q4, s, q5⟩ := Fec.isSome_mask q3
      refine ⟨q4, ?_⟩
      simp only [hS, allFrags, if_pos q1]
      rw [gt_append, if_pos q4, q5]; rfl
    · obtain ⟨q1, q2, q3⟩ := hc.par i hi
      obtain ⟨q4, s, q5⟩ := Fec.isSome_mask q2
      refine ⟨q4, ?_⟩
      simp only [hS, allFrags]
      rw [q3]
      by_cases hs : E.base.sys = true
      · rw [if_pos hs, if_pos hs, gt_append, h1 hs, if_neg (by omega), Nat.add_sub_cancel_left, q5]; rfl
      · rw [if_neg hs, if_neg hs, q5]; rfl
  have hd := Nat.div_add_mod (len j) E.buf_size
  rw [Nat.mul_comm] at hd
  have hmul : ∀ {a i}, a ≤ len i / E.buf_size → a * E.buf_size ≤ (S i).length := fun {a i} h => by
    have := hlen i
    rw [← this]
    exact le_trans (Nat.mul_le_mul_right _ h) (Nat.div_mul_le_self _ _)
  obtain ⟨o', e', z⟩ := decLoop_fit hb hc.lt.le hc.ndz
    (fun i j hi hj he => hc.valid.inj i j (by have := hc.lt; omega) (by have := hc.lt; omega) he)
    (by rw [hc.valid.size]; exact hc.lt.le) hc.ainj hc.asz.ge hj.lt (Nat.mod_lt (len j) hb) (len j / E.buf_size)
    (fuel := maxLen datas + maxLen pars + 2) (datas := datas) (pars := pars) (S := S) (by
      have q1 := maxLen_ge (hpk.par 0 (by have := hc.lt; omega)).2
      have q2 := hj.fewest nd hc.lt
      have q3 := Nat.div_le_self (len nd) E.buf_size
      have q4 : len nd = (S (nd + 0)).length := hlen nd
      omega) (by simp [freshChars]) (by rw [hd]; exact (hlen j).symm) (fun i hi => hmul (hj.fewest i hi)) (fun i h1 h2 => hmul (hj.last i h1 h2)) hpk
    ⟨fun i hi => ⟨by rw [fitAll_size]; exact (hpk.data i hi).1, by rw [fitAll_gt, (hpk.data i hi).2, wholePkts_eq hb]; rfl⟩,
      fun i hi => ⟨by rw [fitAll_size]; exact (hpk.par i hi).1, by rw [fitAll_gt, (hpk.par i hi).2, wholePkts_eq hb]; rfl⟩⟩ e2
  exact ⟨o', by rw [e', ok_bind]; rfl, by rw [hd] at z; exact z⟩

end FecV

end Quad
