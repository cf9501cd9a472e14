import Verif.Lemmas.FecBufCtx
import Verif.Lemmas.Packet

/-!
Vertical streams: any code whose packet-level functions meet `FecV.VSpec`
round-trips byte streams packet by packet.
-/

namespace Quad

/-- word `c` of each of the `k` first blocks -/
def colOf (H : Heap) (mem : Array Nat) (k c : Nat) : Array Nat := Array.ofFn (fun i : Fin k => el H (gt mem i) c)

/-- word `c` of each of the `k` first packets -/
def pktRow (w k : Nat) (wc : Array (Array Nat)) (c : Nat) : Array Nat := Array.ofFn (fun i : Fin k => wordAt w (gt wc i).toList c)

/-- from `H` to `H'` no block at or above `b0` has changed except those of `own` -/
def Only (b0 : Nat) (own : Nat → Prop) (H H' : Heap) : Prop := H'.size = H.size ∧ ∀ b, b0 ≤ b → ¬ own b → gt H' b = gt H b

/-- block `b` is one of `mem` -/
def InMem (mem : Array Nat) (b : Nat) : Prop := ∃ i, i < mem.size ∧ gt mem i = b

theorem Only.of_frame {b0 : Nat} {own : Nat → Prop} {mem : Array Nat} {H H' : Heap} (h : Frame mem H H')
    (ho : ∀ i, i < mem.size → b0 ≤ gt mem i → own (gt mem i)) : Only b0 own H H' :=
  ⟨h.size, fun b hb hn => h.out b (fun i hi he => hn (by rw [← he]; exact ho i hi (by omega)))⟩

theorem Only.trans {b0 : Nat} {own : Nat → Prop} {H1 H2 H3 : Heap} (h : Only b0 own H1 H2) (h' : Only b0 own H2 H3) :
    Only b0 own H1 H3 :=
  ⟨h'.1.trans h.1, fun b hb hn => (h'.2 b hb hn).trans (h.2 b hb hn)⟩

/-- `st a f` is what is stored of output `f` for data row `a`, `mk a f` its mark.
`Live C H`: the blocks of the object, which are below `b0`, are as they should be,
and `C` is its context for encoding. -/
structure FecV.VSpec (E : FecV) (st : Array Nat → Nat → Nat) (mk : Array Nat → Nat → Option Nat) (b0 : Nat)
    (Live : CtxB → Heap → Prop) : Prop where
  w : WordSize E.base.word_size
  hb : 8 * E.base.word_size ≤ E.b
  kpos : 0 < E.base.n_data
  cl : E.base.code_len = E.base.n_data + E.base.n_parities
  nout : E.base.n_outputs = if E.base.sys then E.base.n_parities else E.base.code_len
  outs : E.base.n_outputs ≤ E.get_n_outputs
  lt : ∀ {a f}, IsRow E.base.word_size E.base.n_data a → f < E.base.n_outputs → st a f < 256 ^ E.base.word_size
  mkz : ∀ {f}, f < E.base.n_outputs → mk (Array.replicate E.base.n_data 0) f = none
  stz : ∀ {f}, f < E.base.n_outputs → st (Array.replicate E.base.n_data 0) f = 0
  size : ∀ {C H}, Live C H → b0 ≤ H.size
  keep : ∀ {C H H'}, Live C H → H.size ≤ H'.size → (∀ b, b < b0 → gt H' b = gt H b) → Live C H'
  enc : ∀ {C : CtxB} {H : Heap} {wm om : Array Nat} {props : Array Properties} {off : Nat}, Live C H →
    wm.size = E.base.n_data → om.size = E.get_n_outputs → InjPtr (wm ++ om) →
    (∀ i, i < (wm ++ om).size → b0 ≤ gt (wm ++ om) i) → Okb E.base.pkt_size H (wm ++ om) → props.size = E.base.n_outputs →
    (∀ c, c < E.base.pkt_size → IsRow E.base.word_size E.base.n_data (colOf H wm E.base.n_data c)) →
    ∃ C' H' props', E.encode C ⟨om, E.get_n_outputs, E.base.pkt_size⟩ props off ⟨wm, E.base.n_data, E.base.pkt_size⟩ H
        = .ok (C', H', props') ∧
      Live C' H' ∧ Okb E.base.pkt_size H' (wm ++ om) ∧ props'.size = E.base.n_outputs ∧
      C' = C ∧ Only b0 (InMem (wm ++ om)) H H' ∧
      ∀ f, f < E.base.n_outputs →
        (∀ c, c < E.base.pkt_size → el H' (gt om f) c % 256 ^ E.base.word_size = st (colOf H wm E.base.n_data c) f) ∧
        gt props' f = ⟨(gt props f).props ++
          (marksOf (fun c => mk (colOf H wm E.base.n_data c) f) E.base.pkt_size).map (fun x => (off + x.1, x.2))⟩
  dec : ∀ {C0 : CtxB} {H : Heap} {rows : Nat → Array Nat} {T : Nat} {ids : Array Nat} {props : Array Properties}
      {wm om : Array Nat} (mem : Nat → Nat) (junk : Nat → Nat → Nat), Live C0 H →
    (∀ t, t < T → IsRow E.base.word_size E.base.n_data (rows t)) →
    ValidIds E.base.n_data (if E.base.sys then E.base.n_data + E.base.n_outputs else E.base.n_outputs) ids →
    props.size = E.base.n_outputs →
    (∀ i f, i < E.base.n_data → f < E.base.n_outputs → gt ids i = (if E.base.sys then E.base.n_data + f else f) →
      gt props f = ⟨marksOf (fun t => mk (rows t) f) T⟩) →
    wm.size = E.base.n_data → om.size = E.base.n_data → InjPtr (wm ++ om) →
    (∀ i, i < (wm ++ om).size → b0 ≤ gt (wm ++ om) i) → Okb E.base.pkt_size H (wm ++ om) →
    ∃ (Good : CtxB → Heap → Nat → Prop) (Own : Nat → Prop) (H' : Heap) (C : CtxB) (props' : Array Properties),
      E.init_context_dec ids props E.base.pkt_size ⟨om, E.base.n_data, E.base.pkt_size⟩ mem junk H = .ok (H', C, props') ∧
      Good C H' 0 ∧ Ext H H' ∧
      (∀ b, Own b → b0 ≤ b ∧ b < H'.size ∧ (b < H.size → InMem om b)) ∧ (∀ b, InMem om b → Own b) ∧
      (∀ {C H H1 t}, Good C H t → H.size ≤ H1.size → Live C0 H1 → (∀ b, Own b → gt H1 b = gt H b) →
        Okb E.base.pkt_size H1 wm → Good C H1 t) ∧
      (∀ {C H t}, Good C H t → Live C0 H ∧ Okb E.base.pkt_size H wm ∧ Okb E.base.pkt_size H om) ∧
      (∀ {C H H1 t}, Good C H t → Frame wm H H1 → Okb E.base.pkt_size H1 wm → Good C H1 t) ∧
      (∀ {C H t}, t + E.base.pkt_size ≤ T → Good C H t →
        (∀ i c, i < E.base.n_data → c < E.base.pkt_size →
          el H (gt wm i) c = fragVal E.base.sys E.base.n_data st (rows (t + c)) (gt ids i)) →
        ∃ C' H', E.decode C ⟨om, E.base.n_data, E.base.pkt_size⟩ props' t ⟨wm, E.base.n_data, E.base.pkt_size⟩ H
            = .ok (C', H') ∧ Good C' H' (t + E.base.pkt_size) ∧ Only b0 (fun b => Own b ∨ InMem wm b) H H' ∧
          ∀ i c, i < E.base.n_data → c < E.base.pkt_size → el H' (gt om i) c = gt (rows (t + c)) i)

/-- the symbol that stands for the word `v` of the `i`-th selected fragment at location `t` -/
def rsym (sys : Bool) (k e : Nat) (props : Array Properties) (ids : Array Nat) (v i t : Nat) : Nat :=
  match propOf sys k (gt ids i) with
  | none => v
  | some f => if (t, OOR_MARK) ∈ (gt props f).props then 2 ^ e else v

/-- Decoding of packets with any contents and the properties `props`: `sy ids v j t` is the symbol that stands for the word `v` of the `j`-th selected fragment at
location `t`, and `val ids y i` is the word `i` decoded from the symbols `y` of the fragments `ids`, up to `eqv`, which only
tells words with other low bytes apart. -/
structure FecV.ASpecG (E : FecV) (props : Array Properties) (sy : Array Nat → Nat → Nat → Nat → Nat) (val : Array Nat → (Nat → Nat) → Nat → Nat) (eqv : Nat → Nat → Prop) (b0 : Nat) (Live : CtxB → Heap → Prop) : Prop where
  low : ∀ {a c : Nat}, eqv a c → a % 256 ^ E.base.word_size = c % 256 ^ E.base.word_size
  congr : ∀ {ids : Array Nat} {y y' : Nat → Nat} {i : Nat}, (∀ j, j < E.base.n_data → y j = y' j) → val ids y i = val ids y' i
  dec : ∀ {C0 : CtxB} {H : Heap} {ids : Array Nat}
      {wm om : Array Nat} (mem : Nat → Nat) (junk : Nat → Nat → Nat), Live C0 H →
    ValidIds E.base.n_data (if E.base.sys then E.base.n_data + E.base.n_outputs else E.base.n_outputs) ids →
    props.size = E.base.n_outputs →
    wm.size = E.base.n_data → om.size = E.base.n_data → InjPtr (wm ++ om) →
    (∀ i, i < (wm ++ om).size → b0 ≤ gt (wm ++ om) i) → Okb E.base.pkt_size H (wm ++ om) →
    ∃ (Good : CtxB → Heap → Nat → Prop) (Own : Nat → Prop) (H' : Heap) (C : CtxB) (props' : Array Properties),
      E.init_context_dec ids props E.base.pkt_size ⟨om, E.base.n_data, E.base.pkt_size⟩ mem junk H = .ok (H', C, props') ∧
      Good C H' 0 ∧ Ext H H' ∧
      (∀ b, Own b → b0 ≤ b ∧ b < H'.size ∧ (b < H.size → InMem om b)) ∧ (∀ b, InMem om b → Own b) ∧
      (∀ {C H H1 t}, Good C H t → H.size ≤ H1.size → Live C0 H1 → (∀ b, Own b → gt H1 b = gt H b) →
        Okb E.base.pkt_size H1 wm → Good C H1 t) ∧
      (∀ {C H t}, Good C H t → Live C0 H ∧ Okb E.base.pkt_size H wm ∧ Okb E.base.pkt_size H om) ∧
      (∀ {C H H1 t}, Good C H t → Frame wm H H1 → Okb E.base.pkt_size H1 wm → Good C H1 t) ∧
      (∀ {C H t}, Good C H t →
        (∀ i c, i < E.base.n_data → c < E.base.pkt_size → el H (gt wm i) c < 256 ^ E.base.word_size) →
        ∃ C' H', E.decode C ⟨om, E.base.n_data, E.base.pkt_size⟩ props' t ⟨wm, E.base.n_data, E.base.pkt_size⟩ H
            = .ok (C', H') ∧ Good C' H' (t + E.base.pkt_size) ∧ Only b0 (fun b => Own b ∨ InMem wm b) H H' ∧
          ∀ i c, i < E.base.n_data → c < E.base.pkt_size → eqv (el H' (gt om i) c)
            (val ids (fun j => sy ids (el H (gt wm j) c) j (t + c)) i))

/-- Decoding of packets with any contents and any properties, with one mark. -/
def FecV.ASpec (E : FecV) (val : Array Nat → (Nat → Nat) → Nat → Nat) (b0 : Nat) (Live : CtxB → Heap → Prop) : Prop :=
  ∀ props, E.ASpecG props (rsym E.base.sys E.base.n_data (8 * E.base.word_size) props) val Eq b0 Live

theorem flat_mod {w T : Nat} {f g : Nat → Nat} (h : ∀ t, t < T → f t % 256 ^ w = g t) : flat w f T = flat w g T := by
  induction T with
  | zero => rfl
  | succ T ih => rw [flat_succ, flat_succ, ih (fun t ht => h t (by omega)), ← h T (by omega), leBytes_mod]

theorem flat_modEq {w T : Nat} {f g : Nat → Nat} (h : ∀ t, t < T → f t % 256 ^ w = g t % 256 ^ w) : flat w f T = flat w g T :=
  (flat_mod (g := fun t => g t % 256 ^ w) h).trans (flat_mod (g := fun t => g t % 256 ^ w) (fun _ _ => rfl)).symm

theorem marksOf_congr {f g : Nat → Option Nat} {T : Nat} (h : ∀ t, t < T → f t = g t) : marksOf f T = marksOf g T := by
  induction T with
  | zero => rfl
  | succ T ih => rw [marksOf_succ, marksOf_succ, ih (fun t ht => h t (by omega)), h T (by omega)]

theorem marksOf_pad {f : Nat → Option Nat} {T d : Nat} (h : ∀ t, T ≤ t → f t = none) : marksOf f (T + d) = marksOf f T := by
  induction d with
  | zero => rfl
  | succ d ih => rw [← Nat.add_assoc, marksOf_succ, ih, h _ (by omega)]; simp

theorem InjPtr.left {a b : Array Nat} (h : InjPtr (a ++ b)) : InjPtr a := fun i j hi hj e => by
  refine h i j (by simp; omega) (by simp; omega) ?_
  rw [gt_append, gt_append, if_pos hi, if_pos hj, e]

theorem InjPtr.right {a b : Array Nat} (h : InjPtr (a ++ b)) : InjPtr b := fun i j hi hj e => by
  have := h (a.size + i) (a.size + j) (by simp; omega) (by simp; omega) (by
    rw [gt_append, gt_append, if_neg (by omega), if_neg (by omega)]
    simpa using e)
  omega

theorem InjPtr.disj {a b : Array Nat} (h : InjPtr (a ++ b)) : Disj a b := fun i j hi hj e => by
  have := h i (a.size + j) (by simp; omega) (by simp; omega) (by
    rw [gt_append, gt_append, if_pos hi, if_neg (by omega)]
    simpa using e)
  omega

theorem Okb.append {pkt : Nat} {H : Heap} {a b : Array Nat} (h1 : Okb pkt H a) (h2 : Okb pkt H b) : Okb pkt H (a ++ b) := by
  intro i hi
  rw [gt_append]
  split
  · exact h1 i (by assumption)
  · exact h2 _ (by rw [Array.size_append] at hi; omega)

theorem CtxB.Mem.ptrs_lt {C : CtxB} {pkt z : Nat} {H : Heap} (h : C.Mem pkt z H) : ∀ i, i < C.ptrs.size → gt C.ptrs i < H.size :=
  fun i hi => ((h.okP.append h.okM) i hi).1

theorem CtxB.Mem.stable {C : CtxB} {pkt z : Nat} {H H' : Heap} (h : C.Mem pkt z H) (hs : H.size ≤ H'.size)
    (hp : ∀ i, i < C.ptrs.size → gt H' (gt C.ptrs i) = gt H (gt C.ptrs i)) (hz : gt H' z = gt H z) : C.Mem pkt z H' := by
  have hall : Okb pkt H' C.ptrs := fun i hi => by
    have := (h.okP.append h.okM) i hi
    exact ⟨lt_of_lt_of_le this.1 hs, by rw [hp i hi]; exact this.2⟩
  exact ⟨hall.sub (SubPtr.left _ _), hall.sub (SubPtr.right _ _), lt_of_lt_of_le h.zlt hs, by rw [hz]; exact h.zv⟩

theorem freshChars_spec (junk : Nat → Nat → Nat) (n size : Nat) : (freshChars junk n size).size = n ∧
    ∀ i, i < n → (gt (freshChars junk n size) i).size = size := by
  unfold freshChars
  refine ⟨by simp, fun i hi => ?_⟩
  rw [gt_ofFn hi]; simp

namespace FecV
variable {E : FecV} {st : Array Nat → Nat → Nat} {mk : Array Nat → Nat → Option Nat} {b0 : Nat} {Live : CtxB → Heap → Prop}

/-- the blocks used for the words and the outputs -/
structure Io (E : FecV) (b0 : Nat) (wm om : Array Nat) (N : Nat) (H : Heap) : Prop where
  wsz : wm.size = E.base.n_data
  osz : om.size = N
  inj : InjPtr (wm ++ om)
  ge : ∀ i, i < (wm ++ om).size → b0 ≤ gt (wm ++ om) i
  ok : Okb E.base.pkt_size H (wm ++ om)

/-- allocation of the words and outputs -/
theorem alloc_spec {C : CtxB} {H : Heap} (hE : E.VSpec st mk b0 Live) (hL : Live C H) (junk : Nat → Nat → Nat) (N : Nat) :
    ∃ H1 H2 wm om, Bufs.full junk H E.base.n_data E.base.pkt_size = (H1, ⟨wm, E.base.n_data, E.base.pkt_size⟩) ∧
      Bufs.full junk H1 N E.base.pkt_size = (H2, ⟨om, N, E.base.pkt_size⟩) ∧ Io E b0 wm om N H2 ∧ Live C H2 := by
  obtain ⟨H1, wm, e1, s1, g1, z1, x1, ok1, in1⟩ := Bufs.full_spec junk H E.base.n_data E.base.pkt_size
  obtain ⟨H2, om, e2, s2, g2, z2, x2, ok2, in2⟩ := Bufs.full_spec junk H1 N E.base.pkt_size
  have hb := hE.size hL
  refine ⟨H1, H2, wm, om, e1, e2, ⟨s1, s2, in1.append in2 ?_, ?_, (ok1.ext x2).append ok2⟩, hE.keep hL (x1.trans x2).le
    (fun b hb' => (x1.trans x2).same b (by omega))⟩
  · intro i j hi hj
    rw [g1 i (by omega), g2 j (by omega)]; omega
  · intro i hi
    rw [gt_append]
    split
    · rw [g1 i (by omega)]; omega
    · rw [g2 _ (by rw [Array.size_append] at hi; omega)]; omega

theorem pktRow_isRow {w k : Nat} {wc : Array (Array Nat)} (h : ∀ i, i < k → ∀ x ∈ (gt wc i).toList, x < 256) (c : Nat) :
    IsRow w k (pktRow w k wc c) := by
  refine ⟨by simp [pktRow], fun i hi => ?_⟩
  unfold pktRow
  rw [gt_ofFn hi]
  exact wordAt_lt (h i hi) c

/-- packing, encoding and unpacking a packet -/
theorem encStep_spec (hE : E.VSpec st mk b0 Live) {wm om : Array Nat} {off : Nat} {s : EncSt} (hL : Live s.enc s.H)
    (hio : Io E b0 wm om E.get_n_outputs s.H) (hw1 : E.base.n_data ≤ s.words_char.size)
    (hw2 : ∀ i, i < E.base.n_data → (gt s.words_char i).size = E.buf_size)
    (hw3 : ∀ i, i < E.base.n_data → ∀ x ∈ (gt s.words_char i).toList, x < 256)
    (ho1 : E.get_n_outputs ≤ s.out_char.size) (ho2 : ∀ i, i < E.get_n_outputs → (gt s.out_char i).size = E.buf_size)
    (hp : s.props.size = E.base.n_outputs) :
    ∃ s', E.encStep ⟨wm, E.base.n_data, E.base.pkt_size⟩ ⟨om, E.get_n_outputs, E.base.pkt_size⟩ off s = .ok s' ∧
      s'.words_char = s.words_char ∧ (s'.enc = s.enc ∧ Only b0 (InMem (wm ++ om)) s.H s'.H ∧ s'.out_char.size = s.out_char.size) ∧
      Live s'.enc s'.H ∧ Io E b0 wm om E.get_n_outputs s'.H ∧
      E.get_n_outputs ≤ s'.out_char.size ∧ (∀ i, i < E.get_n_outputs → (gt s'.out_char i).size = E.buf_size) ∧
      s'.props.size = E.base.n_outputs ∧ ∀ f, f < E.base.n_outputs →
        gt s'.out_char f = (flat E.base.word_size
          (fun c => st (pktRow E.base.word_size E.base.n_data s.words_char c) f) E.base.pkt_size).toArray ∧
        gt s'.props f = ⟨(gt s.props f).props ++
          (marksOf (fun c => mk (pktRow E.base.word_size E.base.n_data s.words_char c) f) E.base.pkt_size).map
            (fun x => (off + x.1, x.2))⟩ := by
  have hws := hio.wsz
  obtain ⟨H1, e1, f1, ok1, g1⟩ := pack_spec (b := E.b) (w := E.base.word_size) (n := E.base.n_data) (pkt := E.base.pkt_size)
    (src := s.words_char) (dest := wm) (H := s.H) hE.w hE.hb hw1 hws hw2 hio.inj.left (hio.ok.sub (SubPtr.left _ _))
  have hcol : ∀ c, c < E.base.pkt_size → colOf H1 wm E.base.n_data c = pktRow E.base.word_size E.base.n_data s.words_char c := by
    intro c hc
    unfold colOf pktRow
    congr 1
    funext i
    exact g1 i c i.2 hc
  have okm : Okb E.base.pkt_size H1 (wm ++ om) := ok1.append ((hio.ok.sub (SubPtr.right _ _)).frame f1 hio.inj.disj)
  have hL1 : Live s.enc H1 := hE.keep hL f1.size.ge (fun b hb => f1.out b (fun i hi he => by
    have := hio.ge i (by simp; omega)
    rw [gt_append, if_pos hi] at this
    omega))
  obtain ⟨C', H2, props', e2, hL2, ok2, hp2, hc2, hn2, h2⟩ := hE.enc (C := s.enc) (H := H1) (wm := wm) (om := om) (props := s.props)
    (off := off) hL1 hws hio.osz hio.inj hio.ge okm hp (fun c hc => by rw [hcol c hc]; exact pktRow_isRow hw3 c)
  obtain ⟨oc, e3, s3, g3⟩ := unpack_spec (b := E.b) (w := E.base.word_size) (n := E.get_n_outputs) (pkt := E.base.pkt_size)
    (src := om) (dest := s.out_char) (H := H2) hE.w hE.hb hio.osz.ge ho1 ho2 (ok2.sub (SubPtr.right _ _))
  refine ⟨{ s with enc := C', H := H2, out_char := oc, props := props' }, ?_, rfl, ⟨hc2, (Only.of_frame f1 (fun i hi _ =>
    ⟨i, by rw [Array.size_append]; omega, by rw [gt_append, if_pos hi]⟩)).trans hn2, s3⟩, hL2,
    ⟨hws, hio.osz, hio.inj, hio.ge, ok2⟩, by rw [← s3] at ho1; exact ho1, ?_, hp2, fun f hf => ⟨?_, ?_⟩⟩
  · unfold encStep
    simp only
    rw [e1, ok_bind, e2, ok_bind]
    simp only
    rw [e3, ok_bind]
    rfl
  · intro i hi
    show (gt oc i).size = _
    rw [g3 i hi, List.size_toArray, flat_length]; rfl
  · show gt oc f = _
    rw [g3 f (lt_of_lt_of_le hf hE.outs)]
    congr 1
    apply flat_mod
    intro c hc
    rw [(h2 f hf).1 c hc, hcol c hc]
  · show gt props' f = _
    rw [(h2 f hf).2]
    congr 3
    exact marksOf_congr (fun c hc => by rw [hcol c hc])

/-- rows past the end of the streams are zero -/
theorem rowAt_oob {w k : Nat} {D : Nat → List Nat} {T t : Nat} (h : ∀ i, i < k → (D i).length ≤ T * w) (ht : T ≤ t) :
    rowAt w k D t = Array.replicate k 0 := by
  apply gt_ext (by simp [rowAt])
  intro i hi
  have hi' : i < k := by simpa [rowAt] using hi
  rw [rowAt_gt hi', gt_replicate hi', wordAt_oob (le_trans (h i hi') (Nat.mul_le_mul_right _ ht))]

theorem pktRow_padPkt {w k pkt off : Nat} {D : Nat → List Nat} {wc : Array (Array Nat)} (h : ∀ i, i < k → gt wc i = padPkt (pkt * w) ((D i).drop (off * w))) {c : Nat} (hc : c < pkt) :
    pktRow w k wc c = rowAt w k D (off + c) := by
  unfold pktRow rowAt
  congr 1
  funext i
  rw [h i i.2, wordAt_padPkt hc]

theorem marks_pkt (hE : E.VSpec st mk b0 Live) {D : Nat → List Nat} {T off pkt f : Nat}
    (hD : ∀ i, i < E.base.n_data → (D i).length ≤ T * E.base.word_size) (hf : f < E.base.n_outputs)
    (hT : T ≤ off + pkt) :
    marksOf (fun t => mk (rowAt E.base.word_size E.base.n_data D t) f) (off + pkt)
      = marksOf (fun t => mk (rowAt E.base.word_size E.base.n_data D t) f) T := by
  rw [show off + pkt = T + (off + pkt - T) by omega]
  exact marksOf_pad (fun t ht => by rw [rowAt_oob hD ht]; exact hE.mkz hf)

/-- the loop on streams of `L` bytes, that is `T` words, the last of which may be short -/
theorem encLoop_spec (hE : E.VSpec st mk b0 Live) (hpkt : 0 < E.base.pkt_size) {D : Nat → List Nat} {T L : Nat} {O : Nat → List Nat}
    {wm om : Array Nat} (hD : ∀ i, i < E.base.n_data → ∀ x ∈ D i, x < 256)
    (hT : ∀ i, i < E.base.n_data → (D i).length = L) (hL1 : L ≤ T * E.base.word_size)
    (hL2 : T * E.base.word_size < L + E.base.word_size) {d : Nat} :
    ∀ {off fuel : Nat} {ins outs : Array (Option (List Nat))} {s : EncSt}, off * E.base.word_size ≤ L → T ≤ off + d → d < fuel →
      ins.size = E.base.n_data → (∀ i, i < E.base.n_data → gt ins i = some ((D i).drop (off * E.base.word_size))) →
      outs.size = E.base.n_outputs →
      (∀ f, f < E.base.n_outputs → gt outs f = some (O f ++
        flat E.base.word_size (fun t => st (rowAt E.base.word_size E.base.n_data D t) f) off)) →
      Live s.enc s.H → Io E b0 wm om E.get_n_outputs s.H → s.words_char.size = E.base.n_data →
      E.get_n_outputs ≤ s.out_char.size → (∀ i, i < E.get_n_outputs → (gt s.out_char i).size = E.buf_size) →
      s.props.size = E.base.n_outputs →
      (∀ f, f < E.base.n_outputs → gt s.props f = ⟨marksOf (fun t => mk (rowAt E.base.word_size E.base.n_data D t) f) off⟩) →
      ∃ outs' s', E.encLoop ⟨wm, E.base.n_data, E.base.pkt_size⟩ ⟨om, E.get_n_outputs, E.base.pkt_size⟩ fuel ins outs
          E.buf_size off s = .ok (outs', s') ∧ outs'.size = E.base.n_outputs ∧ Live s'.enc s'.H ∧
        s'.props.size = E.base.n_outputs ∧ ∀ f, f < E.base.n_outputs →
        gt outs' f = some (O f ++ (flat E.base.word_size (fun t => st (rowAt E.base.word_size E.base.n_data D t) f) T).take L) ∧
        gt s'.props f = ⟨marksOf (fun t => mk (rowAt E.base.word_size E.base.n_data D t) f) T⟩ := by
  have hwp := hE.w.pos
  have hk := hE.kpos
  set w := E.base.word_size with hwd
  set k := E.base.n_data with hkd
  set pkt := E.base.pkt_size with hpd
  have hbs : E.buf_size = pkt * w := rfl
  have hTm : ∀ {a : Nat}, L ≤ a * w → T ≤ a := fun {a} h => by
    have : T * w < (a + 1) * w := by rw [Nat.add_mul, Nat.one_mul]; omega
    exact Nat.lt_succ_iff.mp (lt_of_mul_lt_mul_right this (Nat.zero_le _))
  have hend : ∀ {f off : Nat}, off * w = L →
      (flat w (fun t => st (rowAt w k D t) f) T).take L = flat w (fun t => st (rowAt w k D t) f) off ∧ off = T := by
    intro f off h
    have h1 := hTm h.ge
    have h2 : off ≤ T := Nat.le_of_mul_le_mul_right (h ▸ hL1) hwp
    have : off = T := le_antisymm h2 h1
    subst this
    rw [← h, flat_take le_rfl]
    exact ⟨rfl, rfl⟩
  have hcut : ∀ {f off : Nat}, off * w ≤ L → L ≤ (off + pkt) * w →
      flat w (fun t => st (rowAt w k D t) f) off ++ (flat w (fun c => st (rowAt w k D (off + c)) f) pkt).take (L - off * w)
        = (flat w (fun t => st (rowAt w k D t) f) T).take L := by
    intro f off h1 h2
    have e1 : (flat w (fun t => st (rowAt w k D t) f) (off + pkt)).take L
        = flat w (fun t => st (rowAt w k D t) f) off ++ (flat w (fun c => st (rowAt w k D (off + c)) f) pkt).take (L - off * w) := by
      rw [flat_add, List.take_append, List.take_of_length_le (by rw [flat_length]; exact h1), flat_length]
    rw [← e1]
    have h3 := hTm h2
    rw [show off + pkt = T + (off + pkt - T) by omega, flat_add, List.take_append_of_le_length (by rw [flat_length]; exact hL1)]
  induction d with
  | zero =>
    intro off fuel ins outs s ho hd hfuel hi1 hi2 ho1 ho2 hL hio hw1 hc1 hc2 hp1 hp2
    have hoL : off * w = L := le_antisymm ho (le_trans hL1 (Nat.mul_le_mul_right _ (by omega)))
    obtain ⟨fuel, rfl⟩ : ∃ f, fuel = f + 1 := ⟨fuel - 1, by omega⟩
    obtain ⟨ins', wc', e, _⟩ := readPkts_spec (buf := E.buf_size) (count := k) (dst := 0) (r := 0)
      (idx := fun i => .ok i) (ix := id) (streams := ins) (wc := s.words_char) (rb := E.buf_size) (cont := true)
      (R := fun i => (D i).drop (off * w)) (fun i _ => rfl) (fun i j _ _ h => h) (fun i hi => by simp only [id]; omega)
      hi2 (fun i hi => by rw [List.length_drop, hT i hi]; omega) (by omega)
    have hb : 0 < E.buf_size := by rw [hbs]; exact Nat.mul_pos hpkt hwp
    rw [if_pos ⟨hk, hb⟩, if_pos ⟨hk, hb⟩] at e
    refine ⟨outs, { s with words_char := wc' }, ?_, ho1, hL, hp1, fun f hf => ⟨?_, ?_⟩⟩
    · unfold encLoop
      rw [e, ok_bind]
      simp only
      rw [if_pos trivial]
      rfl
    · rw [(hend hoL).1, ho2 f hf]
    · rw [← (hend (f := f) hoL).2, hp2 f hf]
  | succ d ih =>
    intro off fuel ins outs s ho hd hfuel hi1 hi2 ho1 ho2 hL hio hw1 hc1 hc2 hp1 hp2
    obtain ⟨fuel, rfl⟩ : ∃ f, fuel = f + 1 := ⟨fuel - 1, by omega⟩
    obtain ⟨ins', wc', e, r1, r2, r3, r4, _⟩ := readPkts_spec (buf := E.buf_size) (count := k) (dst := 0) (r := L - off * w)
      (idx := fun i => .ok i) (ix := id) (streams := ins) (wc := s.words_char) (rb := E.buf_size) (cont := true)
      (R := fun i => (D i).drop (off * w)) (fun i _ => rfl) (fun i j _ _ h => h) (fun i hi => by simp only [id]; omega)
      hi2 (fun i hi => by rw [List.length_drop, hT i hi]) (by omega)
    have hb : 0 < E.buf_size := by rw [hbs]; exact Nat.mul_pos hpkt hwp
    have hcond : (0 < k ∧ L - off * w < E.buf_size) ↔ L < (off + pkt) * w := by
      rw [hbs, Nat.add_mul]
      omega
    simp only [Nat.zero_add] at r4
    have hwc : ∀ i, i < k → gt wc' i = padPkt (pkt * w) ((D i).drop (off * w)) := r4
    obtain ⟨s', e', q1, _, q2, q3, q4, q5, q6, q7⟩ := encStep_spec hE (wm := wm) (om := om) (off := off)
      (s := { s with words_char := wc' }) hL hio (by show k ≤ wc'.size; omega)
      (fun i hi => by show (gt wc' i).size = _; rw [hwc i hi, padPkt_size, hbs])
      (fun i hi => by
        show ∀ x ∈ (gt wc' i).toList, x < 256
        rw [hwc i hi]; exact padPkt_bytes (fun x hx => hD i hi x (List.mem_of_mem_drop hx)))
      hc1 hc2 hp1
    have hF : ∀ f, f < E.base.n_outputs →
        gt s'.out_char f = (flat w (fun c => st (rowAt w k D (off + c)) f) pkt).toArray ∧
        gt s'.props f = ⟨marksOf (fun t => mk (rowAt w k D t) f) (off + pkt)⟩ := by
      intro f hf
      refine ⟨?_, ?_⟩
      · rw [(q7 f hf).1]
        congr 1
        exact flat_congr (fun c hc => by rw [pktRow_padPkt hwc hc])
      · rw [(q7 f hf).2]
        show Properties.mk ((gt s.props f).props ++ _) = _
        rw [hp2 f hf, marksOf_add]
        congr 3
        exact marksOf_congr (fun c hc => by rw [pktRow_padPkt hwc hc])
    by_cases hlast : L < (off + pkt) * w
    · rw [if_pos (hcond.mpr hlast), if_pos (hcond.mpr hlast)] at e
      by_cases hz : L - off * w = 0
      · have hoL : off * w = L := by omega
        refine ⟨outs, { s with words_char := wc' }, ?_, ho1, hL, hp1, fun f hf => ⟨?_, ?_⟩⟩
        · unfold encLoop
          rw [e, ok_bind]
          simp only
          rw [if_pos hz]
          rfl
        · rw [(hend hoL).1, ho2 f hf]
        · rw [← (hend (f := f) hoL).2, hp2 f hf]
      · obtain ⟨outs', eo, o1, o2⟩ := writePkts_bytes (w := w) (n := L - off * w) (N := E.base.n_outputs) (pkt := pkt) (oc := s'.out_char)
          (outs := outs) (f := fun f c => st (rowAt w k D (off + c)) f) (le_trans hE.outs q4) ho1.ge
          (by rw [Nat.add_mul] at hlast; omega) (fun f hf => (hF f hf).1)
        refine ⟨outs', s', ?_, by omega, q2, q6, fun f hf => ⟨?_, ?_⟩⟩
        · unfold encLoop
          rw [e, ok_bind]
          simp only
          rw [if_neg hz, e', ok_bind, eo, ok_bind, if_neg (by simp)]
          rfl
        · rw [o2 f hf, ho2 f hf]
          simp only [Option.map_some]
          rw [List.append_assoc, hcut ho hlast.le]
        · rw [(hF f hf).2, marks_pkt hE (fun i hi => by rw [hT i hi]; exact hL1) hf (hTm hlast.le)]
    · rw [if_neg (fun h => hlast (hcond.mp h)), if_neg (fun h => hlast (hcond.mp h))] at e
      obtain ⟨outs', eo, o1, o2⟩ := writePkts_spec (w := w) (n := pkt) (N := E.base.n_outputs) (pkt := pkt) (oc := s'.out_char)
          (outs := outs) (f := fun f c => st (rowAt w k D (off + c)) f) (le_trans hE.outs q4) ho1.ge le_rfl (fun f hf => (hF f hf).1)
      obtain ⟨res, sf, ef, hres⟩ := ih (off := off + pkt) (fuel := fuel) (ins := ins') (outs := outs') (s := s') (by omega) (by omega)
        (by omega) (by omega) (fun i hi => by
          have := r3 i hi
          simp only [id] at this
          rw [this, List.drop_drop, hbs, Nat.add_mul]) (by omega) (fun f hf => by
          rw [o2 f hf, ho2 f hf]
          simp only [Option.map_some]
          rw [List.append_assoc, ← flat_add w (fun t => st (rowAt w k D t) f)]) q2 q3 (by rw [q1]; exact r2.trans hw1) q4 q5 q6
        (fun f hf => (hF f hf).2)
      refine ⟨res, sf, ?_, hres⟩
      unfold encLoop
      rw [e, ok_bind]
      simp only
      rw [if_neg (by omega), e', ok_bind]
      have eo' : writePkts E.base.n_outputs E.buf_size s'.out_char outs = .ok outs' := eo
      rw [eo', ok_bind, if_pos trivial]
      exact ef

/-- encoding streams of `L` bytes packet by packet -/
theorem encode_streams_vertical_bytes (hE : E.VSpec st mk b0 Live) (hpkt : 0 < E.base.pkt_size) {enc : CtxB} {H : Heap}
    (hL : Live enc H) {data : Array (List Nat)} {outs : Array (List Nat)} {props : Array Properties} {T L : Nat}
    (junk : Nat → Nat → Nat) (h1 : data.size = E.base.n_data) (h2 : outs.size = E.base.n_outputs)
    (h3 : props.size = E.base.n_outputs) (hD : ∀ i, i < E.base.n_data → ∀ x ∈ gt data i, x < 256)
    (hT : ∀ i, i < E.base.n_data → (gt data i).length = L) (hL1 : L ≤ T * E.base.word_size)
    (hL2 : T * E.base.word_size < L + E.base.word_size) :
    ∃ outs' props' enc' H', E.encode_streams_vertical enc data outs props junk H = .ok (outs', props', enc', H') ∧
      Live enc' H' ∧ outs'.size = E.base.n_outputs ∧ props'.size = E.base.n_outputs ∧ ∀ f, f < E.base.n_outputs →
      gt outs' f = some (gt outs f ++ (flat E.base.word_size (fun t => st (rowAt E.base.word_size E.base.n_data (gt data) t) f) T).take L) ∧
      gt props' f = ⟨marksOf (fun t => mk (rowAt E.base.word_size E.base.n_data (gt data) t) f) T⟩ := by
  have hk := hE.kpos
  have hwp := hE.w.pos
  obtain ⟨H1, H2, wm, om, e1, e2, hio, hL2'⟩ := alloc_spec hE hL junk E.get_n_outputs
  obtain ⟨wz, wg⟩ := freshChars_spec junk E.base.n_data E.buf_size
  obtain ⟨oz, og⟩ := freshChars_spec junk E.get_n_outputs E.buf_size
  have hfuel : T < (gt data 0).length + 2 := by
    rw [hT 0 hk]
    by_contra hc
    have h := Nat.mul_le_mul_right E.base.word_size (show L + 2 ≤ T by omega)
    have h' : L * 1 ≤ L * E.base.word_size := Nat.mul_le_mul_left _ hwp
    rw [Nat.add_mul] at h
    omega
  obtain ⟨o, s, e, q1, q2, q3, q4⟩ := encLoop_spec hE hpkt (D := gt data) (T := T) (L := L) (O := gt outs) (wm := wm) (om := om) hD hT
    hL1 hL2 (d := T)
    (off := 0) (fuel := (gt data 0).length + 2) (ins := data.map some) (outs := outs.map some)
    (s := ⟨enc, H2, freshChars junk E.base.n_data E.buf_size, freshChars junk E.get_n_outputs E.buf_size, props.map Properties.clear⟩)
    (by omega) (by omega) hfuel (by simp [h1]) (fun i hi => by rw [gt_map (by omega)]; simp) (by simp [h2])
    (fun f hf => by rw [gt_map (by omega)]; simp [flat_zero]) hL2' hio wz oz.ge og (by simp [h3])
    (fun f hf => by show gt (props.map Properties.clear) f = _; rw [gt_map (by omega)]; rfl)
  refine ⟨o, s.props, s.enc, s.H, ?_, q2, q1, q3, q4⟩
  unfold encode_streams_vertical
  simp only [cassert, h1, h2, h3, decide_true, if_true, ok_bind, e1, e2]
  rw [e, ok_bind]
  rfl

/-- encoding byte streams packet by packet -/
theorem encode_streams_vertical_spec (hE : E.VSpec st mk b0 Live) (hpkt : 0 < E.base.pkt_size) {enc : CtxB} {H : Heap}
    (hL : Live enc H) {data : Array (List Nat)} {outs : Array (List Nat)} {props : Array Properties} {T : Nat}
    (junk : Nat → Nat → Nat) (h1 : data.size = E.base.n_data) (h2 : outs.size = E.base.n_outputs)
    (h3 : props.size = E.base.n_outputs) (hD : ∀ i, i < E.base.n_data → ∀ x ∈ gt data i, x < 256)
    (hT : ∀ i, i < E.base.n_data → (gt data i).length = T * E.base.word_size) :
    ∃ outs' props' enc' H', E.encode_streams_vertical enc data outs props junk H = .ok (outs', props', enc', H') ∧
      Live enc' H' ∧ outs'.size = E.base.n_outputs ∧ props'.size = E.base.n_outputs ∧ ∀ f, f < E.base.n_outputs →
      gt outs' f = some (gt outs f ++ flat E.base.word_size (fun t => st (rowAt E.base.word_size E.base.n_data (gt data) t) f) T) ∧
      gt props' f = ⟨marksOf (fun t => mk (rowAt E.base.word_size E.base.n_data (gt data) t) f) T⟩ := by
  have hwp := hE.w.pos
  obtain ⟨o, p, e, H', q⟩ := encode_streams_vertical_bytes hE hpkt hL (T := T) (outs := outs) (props := props) junk h1 h2 h3 hD hT le_rfl
    (by omega)
  refine ⟨o, p, e, H', q.1, q.2.1, q.2.2.1, q.2.2.2.1, fun f hf => ?_⟩
  have := q.2.2.2.2 f hf
  rw [flat_take le_rfl] at this
  exact this

/-! ### decoding -/

/-- what `selectFragments` gives when it finds enough fragments -/
structure Chosen (B : FecBase) (dmask pmask : Array Bool) (ids apar : Array Nat) (nd : Nat) : Prop where
  valid : ValidIds B.n_data (if B.sys then B.n_data + B.n_outputs else B.n_outputs) ids
  lt : nd < B.n_data
  ndz : B.sys = false → nd = 0
  asz : apar.size = B.n_data - nd
  ainj : ∀ i j, i < B.n_data - nd → j < B.n_data - nd → gt apar i = gt apar j → i = j
  data : ∀ i, i < nd → B.sys = true ∧ gt ids i < B.n_data ∧ gt dmask (gt ids i) = true
  par : ∀ i, i < B.n_data - nd → gt apar i < B.n_outputs ∧ gt pmask (gt apar i) = true ∧
    gt ids (nd + i) = if B.sys then B.n_data + gt apar i else gt apar i
  sorted : (ids.toList.mergeSort (fun x y => decide (x ≤ y))).toArray = ids

theorem present_sorted (mask : Array Bool) (n : Nat) : (present mask n).Pairwise (· ≤ ·) :=
  (List.pairwise_le_range (n := n)).filter _

theorem chosen_spec (B : FecBase) {dmask pmask : Array Bool} (hall : (B.dataList dmask).length ≠ B.n_data)
    (hfew : ¬ (B.dataList dmask).length + (present pmask B.n_outputs).length < B.n_data) :
    Chosen B dmask pmask (B.dataList dmask ++ (B.parList dmask pmask).map (fun i => if B.sys then B.n_data + i else i)).toArray
      (B.parList dmask pmask).toArray (B.dataList dmask).length := by
  set k := B.n_data with hkd
  set dl := B.dataList dmask with hdl
  set pl := B.parList dmask pmask with hpl
  have hdle : dl.length ≤ k := B.dataList_length_le _
  have hpll : pl.length = k - dl.length := by
    rw [hpl]; unfold FecBase.parList; rw [List.length_take, ← hdl]; omega
  have hpmem' : ∀ x, x ∈ pl → x < B.n_outputs ∧ gt pmask x = true := by
    intro x hx
    exact mem_present.mp (List.mem_of_mem_take hx)
  have hpmem : ∀ i, i < pl.length → pl.getD i 0 < B.n_outputs ∧ gt pmask (pl.getD i 0) = true := by
    intro i hi
    rw [List.getD_eq_getElem _ _ hi]
    exact hpmem' _ (List.getElem_mem hi)
  have hpnd : pl.Nodup := (present_nodup _ _).sublist (List.take_sublist _ _)
  have hdmem' : ∀ x, x ∈ dl → B.sys = true ∧ x < k ∧ gt dmask x = true := by
    intro x hx
    rw [hdl] at hx
    unfold FecBase.dataList at hx
    split at hx
    · rename_i hs
      exact ⟨hs, mem_present.mp hx⟩
    · simp at hx
  have hdmem : ∀ i, i < dl.length → B.sys = true ∧ dl.getD i 0 < k ∧ gt dmask (dl.getD i 0) = true := by
    intro i hi
    rw [List.getD_eq_getElem _ _ hi]
    exact hdmem' _ (List.getElem_mem hi)
  have hdnd : dl.Nodup := by
    rw [hdl]; unfold FecBase.dataList
    split
    · exact present_nodup _ _
    · simp
  set ids : Array Nat := (dl ++ pl.map (fun i => if B.sys then k + i else i)).toArray with hids
  have hidl : ∀ i, i < dl.length → gt ids i = dl.getD i 0 := by
    intro i hi
    rw [hids, Fec.gt_toArray]
    simp [List.getD, List.getElem?_append_left hi]
  have hidr : ∀ i, dl.length ≤ i → i < k → gt ids i = (if B.sys then k + pl.getD (i - dl.length) 0 else pl.getD (i - dl.length) 0) := by
    intro i hi hik
    rw [hids, Fec.gt_toArray]
    have : i - dl.length < pl.length := by omega
    simp [List.getD, List.getElem?_append_right hi, this]
  refine ⟨⟨by rw [hids]; simp; omega, ?_, ?_⟩, by omega, ?_, by rw [List.size_toArray, hpll], ?_, ?_, ?_, ?_⟩
  · intro i j hi hj he
    rcases Nat.lt_or_ge i dl.length with hi' | hi' <;> rcases Nat.lt_or_ge j dl.length with hj' | hj'
    · rw [hidl i hi', hidl j hj'] at he
      exact Fec.getD_ne_of_nodup hdnd hi' hj' he
    · rw [hidl i hi', hidr j hj' hj, if_pos (hdmem i hi').1] at he
      have := (hdmem i hi').2.1
      omega
    · rw [hidr i hi' hi, hidl j hj', if_pos (hdmem j hj').1] at he
      have := (hdmem j hj').2.1
      omega
    · rw [hidr i hi' hi, hidr j hj' hj] at he
      have he' : pl.getD (i - dl.length) 0 = pl.getD (j - dl.length) 0 := by
        by_cases hs : B.sys = true
        · rw [if_pos hs, if_pos hs] at he; omega
        · rw [if_neg hs, if_neg hs] at he; exact he
      have := Fec.getD_ne_of_nodup hpnd (by omega) (by omega) he'
      omega
  · intro i hi
    rcases Nat.lt_or_ge i dl.length with hi' | hi'
    · rw [hidl i hi', if_pos (hdmem i hi').1]
      have := (hdmem i hi').2.1
      omega
    · rw [hidr i hi' hi]
      have := (hpmem (i - dl.length) (by omega)).1
      split <;> omega
  · intro hs
    rw [hdl]; unfold FecBase.dataList; rw [if_neg (by rw [hs]; simp)]; rfl
  · intro i j hi hj he
    rw [Fec.gt_toArray, Fec.gt_toArray] at he
    exact Fec.getD_ne_of_nodup hpnd (by omega) (by omega) he
  · intro i hi
    rw [hidl i hi]
    exact hdmem i hi
  · intro i hi
    rw [Fec.gt_toArray, hidr _ (by omega) (by omega), Nat.add_sub_cancel_left]
    exact ⟨(hpmem i (by omega)).1, (hpmem i (by omega)).2, rfl⟩
  · have : (ids.toList.mergeSort (fun x y => decide (x ≤ y))) = ids.toList := by
      apply List.mergeSort_of_pairwise
      refine List.Pairwise.imp (R := (· ≤ ·)) (fun h => by simpa using h) ?_
      rw [hids]
      show List.Pairwise (· ≤ ·) (dl ++ pl.map (fun i => if B.sys then k + i else i))
      rw [List.pairwise_append]
      refine ⟨?_, ?_, ?_⟩
      · rw [hdl]; unfold FecBase.dataList
        split
        · exact present_sorted _ _
        · simp
      · rw [List.pairwise_map]
        refine ((present_sorted _ _).sublist (List.take_sublist _ _)).imp ?_
        intro a b hab
        split <;> omega
      · intro a ha b hb
        obtain ⟨hs, h1, _⟩ := hdmem' a ha
        rw [List.mem_map] at hb
        obtain ⟨x, _, rfl⟩ := hb
        rw [if_pos hs]; omega
    rw [this]

/-- packing, decoding and unpacking a packet -/
theorem decStep_spec (hE : E.VSpec st mk b0 Live) {wm om : Array Nat} {off : Nat} {s : DecSt} {props : Array Properties}
    {Good : CtxB → Heap → Nat → Prop} {rows : Nat → Array Nat} {S : Nat → Nat → Nat}
    (hgl : ∀ {C H t}, Good C H t → Okb E.base.pkt_size H wm ∧ Okb E.base.pkt_size H om)
    (hgf : ∀ {C H H1 t}, Good C H t → Frame wm H H1 → Okb E.base.pkt_size H1 wm → Good C H1 t)
    (hdec : ∀ {C H}, Good C H off → (∀ i c, i < E.base.n_data → c < E.base.pkt_size → el H (gt wm i) c = S i (off + c)) →
        ∃ C' H', E.decode C ⟨om, E.base.n_data, E.base.pkt_size⟩ props off ⟨wm, E.base.n_data, E.base.pkt_size⟩ H
            = .ok (C', H') ∧ Good C' H' (off + E.base.pkt_size) ∧
          ∀ i c, i < E.base.n_data → c < E.base.pkt_size →
            el H' (gt om i) c % 256 ^ E.base.word_size = gt (rows (off + c)) i % 256 ^ E.base.word_size)
    (hws : wm.size = E.base.n_data) (hos : om.size = E.base.n_data) (hinj : InjPtr (wm ++ om)) (hG : Good s.C s.H off)
    (hw1 : E.base.n_data ≤ s.words_char.size) (hw2 : ∀ i, i < E.base.n_data → (gt s.words_char i).size = E.buf_size)
    (hw3 : ∀ i c, i < E.base.n_data → c < E.base.pkt_size → wordAt E.base.word_size (gt s.words_char i).toList c = S i (off + c))
    (ho1 : E.base.n_data ≤ s.out_char.size) (ho2 : ∀ i, i < E.base.n_data → (gt s.out_char i).size = E.buf_size) :
    ∃ s', E.decStep ⟨wm, E.base.n_data, E.base.pkt_size⟩ ⟨om, E.base.n_data, E.base.pkt_size⟩ props off s = .ok s' ∧
      s'.words_char = s.words_char ∧ Good s'.C s'.H (off + E.base.pkt_size) ∧
      E.base.n_data ≤ s'.out_char.size ∧ (∀ i, i < E.base.n_data → (gt s'.out_char i).size = E.buf_size) ∧
      s'.out_char.size = s.out_char.size ∧ ∀ i, i < E.base.n_data → gt s'.out_char i
        = (flat E.base.word_size (fun c => gt (rows (off + c)) i) E.base.pkt_size).toArray := by
  obtain ⟨H1, e1, f1, ok1, g1⟩ := pack_spec (b := E.b) (w := E.base.word_size) (n := E.base.n_data) (pkt := E.base.pkt_size)
    (src := s.words_char) (dest := wm) (H := s.H) hE.w hE.hb hw1 hws hw2 hinj.left (hgl hG).1
  obtain ⟨C', H2, e2, hG2, h2⟩ := hdec (hgf hG f1 ok1) (fun i c hi hc => by rw [g1 i c hi hc, hw3 i c hi hc])
  obtain ⟨oc, e3, s3, g3⟩ := unpack_spec (b := E.b) (w := E.base.word_size) (n := E.base.n_data) (pkt := E.base.pkt_size)
    (src := om) (dest := s.out_char) (H := H2) hE.w hE.hb hos.ge ho1 ho2 (hgl hG2).2
  refine ⟨{ s with C := C', H := H2, out_char := oc }, ?_, rfl, hG2, by rw [← s3] at ho1; exact ho1, ?_, s3, ?_⟩
  · unfold decStep
    simp only
    rw [e1, ok_bind, e2, ok_bind]
    simp only
    rw [e3, ok_bind]
    rfl
  · intro i hi
    show (gt oc i).size = _
    rw [g3 i hi, List.size_toArray, flat_length]; rfl
  · intro i hi
    show gt oc i = _
    rw [g3 i hi, flat_modEq (fun c hc => h2 i c hi hc)]

/-- the loop of the decoder: `S i` is the stream of the `i`-th selected fragment -/
theorem decLoop_spec (hE : E.VSpec st mk b0 Live) (hpkt : 0 < E.base.pkt_size) {k nd w T : Nat} {rows : Nat → Array Nat}
    {ids apar wm om : Array Nat} {props : Array Properties}
    {Good : CtxB → Heap → Nat → Prop} {S : Nat → List Nat} {O : Nat → Option (List Nat)} {sys : Bool}
    (hsys : E.base.sys = sys) (hk : E.base.n_data = k) (hEw : E.base.word_size = w)
    (hnd : nd < k) (hnd0 : sys = false → nd = 0) (hids : ∀ i j, i < nd → j < nd → gt ids i = gt ids j → i = j)
    (hidsz : nd ≤ ids.size)
    (hapar : ∀ i j, i < k - nd → j < k - nd → gt apar i = gt apar j → i = j) (haparz : k - nd ≤ apar.size)
    (hS : ∀ i, i < k → (S i).length = T * w)
    (hgl : ∀ {C H t}, Good C H t → Okb E.base.pkt_size H wm ∧ Okb E.base.pkt_size H om)
    (hgf : ∀ {C H H1 t}, Good C H t → Frame wm H H1 → Okb E.base.pkt_size H1 wm → Good C H1 t)
    (hdec : ∀ {off C H}, off ≤ T → Good C H off →
        (∀ i c, i < E.base.n_data → c < E.base.pkt_size → el H (gt wm i) c = wordAt w (S i) (off + c)) →
        ∃ C' H', E.decode C ⟨om, E.base.n_data, E.base.pkt_size⟩ props off ⟨wm, E.base.n_data, E.base.pkt_size⟩ H
            = .ok (C', H') ∧ Good C' H' (off + E.base.pkt_size) ∧
          ∀ i c, i < E.base.n_data → c < E.base.pkt_size →
            el H' (gt om i) c % 256 ^ E.base.word_size = gt (rows (off + c)) i % 256 ^ E.base.word_size)
    (hws : wm.size = E.base.n_data) (hos : om.size = E.base.n_data) (hinj : InjPtr (wm ++ om)) {d : Nat} :
    ∀ {off fuel : Nat} {datas pars outs : Array (Option (List Nat))} {s : DecSt},
      off ≤ T → T ≤ off + d → d < fuel →
      (∀ i, i < nd → gt ids i < datas.size ∧ gt datas (gt ids i) = some ((S i).drop (off * w))) →
      (∀ i, i < k - nd → gt apar i < pars.size ∧ gt pars (gt apar i) = some ((S (nd + i)).drop (off * w))) →
      outs.size = k → (∀ i, i < k → gt outs i = (O i).map (fun s => s ++ flat w (fun t => gt (rows t) i) off)) →
      Good s.C s.H off → k ≤ s.words_char.size → k ≤ s.out_char.size → (∀ i, i < k → (gt s.out_char i).size = E.buf_size) →
      ∃ outs' H' C' t', E.decLoop ⟨wm, E.base.n_data, E.base.pkt_size⟩ ⟨om, E.base.n_data, E.base.pkt_size⟩ ids apar nd props fuel
          datas pars outs E.buf_size off s = .ok (outs', H') ∧ Good C' H' t' ∧ outs'.size = k ∧
        ∀ i, i < k → gt outs' i = (O i).map (fun s => s ++ flat w (fun t => gt (rows t) i) T) := by
  have hwp : 0 < w := by rw [← hEw]; exact hE.w.pos
  set pkt := E.base.pkt_size with hpd
  have hbs : E.buf_size = pkt * w := by rw [← hEw]; rfl
  have hb : 0 < E.buf_size := by rw [hbs]; exact Nat.mul_pos hpkt hwp
  -- the two reads
  have hread : ∀ (off : Nat) (datas pars : Array (Option (List Nat))) (wc : Array (Array Nat)), off ≤ T → k ≤ wc.size →
      (∀ i, i < nd → gt ids i < datas.size ∧ gt datas (gt ids i) = some ((S i).drop (off * w))) →
      (∀ i, i < k - nd → gt apar i < pars.size ∧ gt pars (gt apar i) = some ((S (nd + i)).drop (off * w))) →
      ∃ datas' wc1 rb1 c1 pars' wc2, (if E.base.sys then readPkts E.buf_size nd 0 (fun i => rd ids i) (datas, wc, E.buf_size, true)
            else pure (datas, wc, E.buf_size, true)) = .ok (datas', wc1, rb1, c1) ∧
        readPkts E.buf_size (k - nd) nd (fun i => rd apar i) (pars, wc1, rb1, c1) = .ok (pars', wc2,
          if T - off < pkt then (T - off) * w else E.buf_size, if T - off < pkt then false else true) ∧
        wc2.size = wc.size ∧
        (∀ i, i < nd → gt ids i < datas'.size ∧ gt datas' (gt ids i) = some ((S i).drop ((off + pkt) * w))) ∧
        (∀ i, i < k - nd → gt apar i < pars'.size ∧ gt pars' (gt apar i) = some ((S (nd + i)).drop ((off + pkt) * w))) ∧
        ∀ i, i < k → gt wc2 i = padPkt (pkt * w) ((S i).drop (off * w)) := by
    intro off datas pars wc ho hwc h1 h2
    have hlen : ∀ i, i < k → ((S i).drop (off * w)).length = (T - off) * w := fun i hi => by
      rw [List.length_drop, hS i hi, Nat.sub_mul]
    have hcond : (T - off) * w < E.buf_size ↔ T - off < pkt := by
      rw [hbs]
      exact ⟨fun h => lt_of_mul_lt_mul_right h (Nat.zero_le _), fun h => Nat.mul_lt_mul_of_pos_right h hwp⟩
    have hdd : ∀ n, ((S n).drop (off * w)).drop E.buf_size = (S n).drop ((off + pkt) * w) := by
      intro n; rw [List.drop_drop, hbs, Nat.add_mul]
    obtain ⟨datas', wc1, rb1, c1, e1, z1, z2, hrb, hc1, r1, r2⟩ : ∃ datas' wc1 rb1 c1,
        (if E.base.sys then readPkts E.buf_size nd 0 (fun i => rd ids i) (datas, wc, E.buf_size, true)
            else pure (datas, wc, E.buf_size, true)) = .ok (datas', wc1, rb1, c1) ∧ datas'.size = datas.size ∧
        wc1.size = wc.size ∧ (¬ T - off < pkt → rb1 = E.buf_size) ∧ (¬ T - off < pkt → c1 = true) ∧
        (∀ i, i < nd → gt datas' (gt ids i) = some ((S i).drop ((off + pkt) * w))) ∧
        ∀ i, i < nd → gt wc1 i = padPkt (pkt * w) ((S i).drop (off * w)) := by
      by_cases hs : E.base.sys = true
      · rw [if_pos hs]
        obtain ⟨a, b, e, z1, z2, z3, z4, _⟩ := readPkts_spec (buf := E.buf_size) (count := nd) (dst := 0) (r := (T - off) * w)
          (idx := fun i => rd ids i) (ix := fun i => gt ids i) (streams := datas) (wc := wc) (rb := E.buf_size) (cont := true)
          (R := fun i => (S i).drop (off * w)) (fun i hi => rd_gt (by omega)) hids (fun i hi => (h1 i hi).1)
          (fun i hi => (h1 i hi).2) (fun i hi => hlen i (by omega)) (by omega)
        refine ⟨a, b, _, _, e, z1, z2, fun h => ?_, fun h => ?_, fun i hi => by rw [z3 i hi, hdd], fun i hi => ?_⟩
        · rw [if_neg (fun hh => h (hcond.mp hh.2))]
        · rw [if_neg (fun hh => h (hcond.mp hh.2))]
        · have := z4 i hi
          rwa [Nat.zero_add, hbs] at this
      · rw [if_neg hs]
        have : nd = 0 := hnd0 (by rw [← hsys]; simpa using hs)
        subst this
        exact ⟨datas, wc, _, _, rfl, rfl, rfl, fun _ => rfl, fun _ => rfl, by simp, by simp⟩
    obtain ⟨a, b, e, y1, y2, y3, y4, y5⟩ := readPkts_spec (buf := E.buf_size) (count := k - nd) (dst := nd) (r := (T - off) * w)
          (idx := fun i => rd apar i) (ix := fun i => gt apar i) (streams := pars) (wc := wc1) (rb := rb1) (cont := c1)
          (R := fun i => (S (nd + i)).drop (off * w)) (fun i hi => rd_gt (by omega)) hapar (fun i hi => (h2 i hi).1)
          (fun i hi => (h2 i hi).2) (fun i hi => hlen _ (by omega)) (by omega)
    refine ⟨datas', wc1, rb1, c1, a, b, e1, ?_, by omega, fun i hi => ⟨by rw [z1]; exact (h1 i hi).1, r1 i hi⟩,
      fun i hi => ⟨by rw [y1]; exact (h2 i hi).1, by rw [y3 i hi, hdd]⟩, fun i hi => ?_⟩
    · rw [e]
      by_cases hl : T - off < pkt
      · rw [if_pos hl, if_pos hl, if_pos ⟨by omega, hcond.mpr hl⟩, if_pos ⟨by omega, hcond.mpr hl⟩]
      · rw [if_neg hl, if_neg hl, if_neg (fun hh => hl (hcond.mp hh.2)), if_neg (fun hh => hl (hcond.mp hh.2)), hrb hl, hc1 hl]
    · rcases Nat.lt_or_ge i nd with hlt | hge
      · rw [y5 i (.inl hlt), r2 i hlt]
      · have := y4 (i - nd) (by omega)
        rw [show nd + (i - nd) = i by omega, hbs] at this
        exact this
  induction d with
  | zero =>
    intro off fuel datas pars outs s ho hd hfuel hda hpa ho1 ho2 hG hw1 hc1 hc2
    have : off = T := by omega
    subst this
    obtain ⟨fuel, rfl⟩ : ∃ f, fuel = f + 1 := ⟨fuel - 1, by omega⟩
    obtain ⟨datas', wc1, rb1, c1, pars', wc2, e1, e2, _⟩ := hread off datas pars s.words_char le_rfl hw1 hda hpa
    rw [if_pos (by omega), if_pos (by omega)] at e2
    refine ⟨outs, s.H, s.C, off, ?_, hG, ho1, ho2⟩
    unfold decLoop
    simp only [hk]
    rw [e1, ok_bind]
    simp only
    rw [e2, ok_bind]
    simp only
    rw [if_pos (by simp)]
    rfl
  | succ d ih =>
    intro off fuel datas pars outs s ho hd hfuel hda hpa ho1 ho2 hG hw1 hc1 hc2
    obtain ⟨fuel, rfl⟩ : ∃ f, fuel = f + 1 := ⟨fuel - 1, by omega⟩
    obtain ⟨datas', wc1, rb1, c1, pars', wc2, e1, e2, z, hda', hpa', hwc⟩ := hread off datas pars s.words_char ho hw1 hda hpa
    obtain ⟨s', e', q1, q2, q3, q4, _, q5⟩ := decStep_spec hE (wm := wm) (om := om) (off := off)
      (s := { s with words_char := wc2 }) (props := props) (Good := Good) (rows := rows) (S := fun i t => wordAt w (S i) t)
      hgl hgf (fun {C H} h1 h2 => hdec ho h1 h2) hws hos hinj hG (by rw [hk]; show k ≤ wc2.size; omega)
      (fun i hi => by show (gt wc2 i).size = _; rw [hwc i (by omega), padPkt_size, hbs])
      (fun i c hi hc => by
        show wordAt _ (gt wc2 i).toList c = _
        rw [hwc i (by omega), hEw, wordAt_padPkt hc])
      (by rw [hk]; exact hc1) (fun i hi => hc2 i (by omega))
    rw [hk] at q3 q4 q5
    rw [hEw] at q5
    by_cases hlast : T - off < pkt
    · rw [if_pos hlast, if_pos hlast] at e2
      by_cases hz : T - off = 0
      · have : off = T := by omega
        subst this
        refine ⟨outs, s.H, s.C, off, ?_, hG, ho1, ho2⟩
        unfold decLoop
        simp only [hk]
        rw [e1, ok_bind]
        simp only
        rw [e2, ok_bind]
        simp only
        rw [if_pos (by simp)]
        rfl
      · obtain ⟨outs', eo, o1, o2⟩ := writePkts_spec (w := w) (n := T - off) (N := k) (pkt := pkt) (oc := s'.out_char)
          (outs := outs) (f := fun i c => gt (rows (off + c)) i) q3 ho1.ge (by omega) q5
        refine ⟨outs', s'.H, s'.C, _, ?_, q2, by omega, fun i hi => ?_⟩
        · unfold decLoop
          simp only [hk] at e' ⊢
          rw [e1, ok_bind]
          simp only
          rw [e2, ok_bind]
          simp only
          rw [if_neg (by
            have : 0 < (T - off) * w := Nat.mul_pos (by omega) hwp
            omega), e', ok_bind, eo, ok_bind, if_neg (by simp)]
          rfl
        · rw [o2 i hi, ho2 i hi]
          cases O i with
          | none => rfl
          | some x =>
            simp only [Option.map_some]
            rw [List.append_assoc, ← flat_add w (fun t => gt (rows t) i), show off + (T - off) = T by omega]
    · rw [if_neg hlast, if_neg hlast] at e2
      obtain ⟨outs', eo, o1, o2⟩ := writePkts_spec (w := w) (n := pkt) (N := k) (pkt := pkt) (oc := s'.out_char)
          (outs := outs) (f := fun i c => gt (rows (off + c)) i) q3 ho1.ge le_rfl q5
      obtain ⟨res, Hf, Cf, tf, ef, hres⟩ := ih (off := off + pkt) (fuel := fuel) (datas := datas') (pars := pars') (outs := outs')
        (s := s') (by omega) (by omega) (by omega) hda' hpa' (by omega) (fun i hi => by
          rw [o2 i hi, ho2 i hi]
          cases O i with
          | none => rfl
          | some x =>
            simp only [Option.map_some]
            rw [List.append_assoc, ← flat_add w (fun t => gt (rows t) i)]) q2 (by rw [q1]; show k ≤ wc2.size; omega) q3 q4
      refine ⟨res, Hf, Cf, tf, ?_, hres⟩
      unfold decLoop
      simp only [hk] at e' ef ⊢
      rw [e1, ok_bind]
      simp only
      rw [e2, ok_bind]
      simp only
      rw [if_neg (by omega), e', ok_bind]
      rw [hbs, eo, ok_bind, if_pos trivial, ← hbs]
      exact ef

/-- word `t` of the stream of the `i`-th chosen fragment, also past its end -/
theorem fragStream (hE : E.VSpec st mk b0 Live) {D : Nat → List Nat} {T : Nat} {ids apar : Array Nat} {nd : Nat}
    {dmask pmask : Array Bool} (hc : Chosen E.base dmask pmask ids apar nd)
    (hD : ∀ i, i < E.base.n_data → ∀ x ∈ D i, x < 256)
    (hT : ∀ i, i < E.base.n_data → (D i).length = T * E.base.word_size) {i t : Nat} (hi : i < E.base.n_data) :
    wordAt E.base.word_size (if i < nd then D (gt ids i)
        else flat E.base.word_size (fun t => st (rowAt E.base.word_size E.base.n_data D t) (gt apar (i - nd))) T) t
      = fragVal E.base.sys E.base.n_data st (rowAt E.base.word_size E.base.n_data D t) (gt ids i) := by
  unfold fragVal
  by_cases hn : i < nd
  · obtain ⟨h1, h2, _⟩ := hc.data i hn
    rw [if_pos hn, if_pos h1, if_pos h2, rowAt_gt h2]
  · obtain ⟨h1, _, h3⟩ := hc.par (i - nd) (by omega)
    rw [show nd + (i - nd) = i by omega] at h3
    have he : (if E.base.sys = true then if gt ids i < E.base.n_data then
        gt (rowAt E.base.word_size E.base.n_data D t) (gt ids i)
        else st (rowAt E.base.word_size E.base.n_data D t) (gt ids i - E.base.n_data)
      else st (rowAt E.base.word_size E.base.n_data D t) (gt ids i))
        = st (rowAt E.base.word_size E.base.n_data D t) (gt apar (i - nd)) := by
      rw [h3]
      by_cases hs : E.base.sys = true
      · simp only [hs, if_true]; rw [if_neg (by omega), Nat.add_sub_cancel_left]
      · simp only [hs, if_false, Bool.false_eq_true]
    rw [if_neg hn, he]
    rcases Nat.lt_or_ge t T with ht | ht
    · exact wordAt_flat ht (hE.lt (rowAt_isRow hD t) h1)
    · rw [rowAt_oob (fun i hi => (hT i hi).le) ht, hE.stz h1, wordAt_oob (by rw [flat_length]; exact Nat.mul_le_mul_right _ ht)]

/-- the context of a decoding of streams whose rows are those of `D` -/
theorem dec_start (hE : E.VSpec st mk b0 Live) {D : Nat → List Nat} {T : Nat} {ids apar : Array Nat} {nd : Nat}
    {dmask pmask : Array Bool} (hc : Chosen E.base dmask pmask ids apar nd)
    (hD : ∀ i, i < E.base.n_data → ∀ x ∈ D i, x < 256)
    (hT : ∀ i, i < E.base.n_data → (D i).length = T * E.base.word_size) {C0 : CtxB} {H : Heap} (hL : Live C0 H)
    {props : Array Properties} (h3 : props.size = E.base.n_outputs)
    (hpr : ∀ i, i < E.base.n_data - nd → gt props (gt apar i)
      = ⟨marksOf (fun t => mk (rowAt E.base.word_size E.base.n_data D t) (gt apar i)) T⟩)
    {wm om : Array Nat} (hio : Io E b0 wm om E.base.n_data H) (mem : Nat → Nat) (junk : Nat → Nat → Nat) :
    ∃ (Good : CtxB → Heap → Nat → Prop) (H' : Heap) (C : CtxB) (props' : Array Properties),
      E.init_context_dec ids props E.base.pkt_size ⟨om, E.base.n_data, E.base.pkt_size⟩ mem junk H = .ok (H', C, props') ∧
      Good C H' 0 ∧
      (∀ {C H t}, Good C H t → Live C0 H ∧ Okb E.base.pkt_size H wm ∧ Okb E.base.pkt_size H om) ∧
      (∀ {C H H1 t}, Good C H t → Frame wm H H1 → Okb E.base.pkt_size H1 wm → Good C H1 t) ∧
      (∀ {t C H}, t ≤ T → Good C H t →
        (∀ i c, i < E.base.n_data → c < E.base.pkt_size →
          el H (gt wm i) c = wordAt E.base.word_size (if i < nd then D (gt ids i)
        else flat E.base.word_size (fun t => st (rowAt E.base.word_size E.base.n_data D t) (gt apar (i - nd))) T) (t + c)) →
        ∃ C' H', E.decode C ⟨om, E.base.n_data, E.base.pkt_size⟩ props' t ⟨wm, E.base.n_data, E.base.pkt_size⟩ H
            = .ok (C', H') ∧ Good C' H' (t + E.base.pkt_size) ∧
          ∀ i c, i < E.base.n_data → c < E.base.pkt_size →
            el H' (gt om i) c = gt (rowAt E.base.word_size E.base.n_data D (t + c)) i) := by
  obtain ⟨Good, Own, H', C, props', e, g0, _, _, _, _, g1, g2, g3⟩ := hE.dec (rows := rowAt E.base.word_size E.base.n_data D)
    (T := T + E.base.pkt_size) (ids := ids) (props := props) (wm := wm) (om := om) mem junk hL (fun t _ => rowAt_isRow hD t)
    hc.valid h3 (by
      intro i f hi hf he
      have hge : nd ≤ i := by
        by_contra hn
        obtain ⟨h1, h2, _⟩ := hc.data i (by omega)
        rw [he, if_pos h1] at h2; omega
      have h5 := (hc.par (i - nd) (by omega)).2.2
      rw [show nd + (i - nd) = i by omega, he] at h5
      have hfa : f = gt apar (i - nd) := by
        by_cases hs : E.base.sys = true
        · rw [if_pos hs, if_pos hs] at h5; omega
        · rw [if_neg hs, if_neg hs] at h5; exact h5
      rw [hfa, hpr (i - nd) (by omega),
        marksOf_pad (fun t ht => by rw [rowAt_oob (fun i hi => (hT i hi).le) ht]; exact hE.mkz (hfa ▸ hf))])
    hio.wsz hio.osz hio.inj hio.ge hio.ok
  refine ⟨Good, H', C, props', e, g0, g1, g2, fun {t C H} ht hG h => ?_⟩
  obtain ⟨C', H', e', q, _, v⟩ := g3 (by omega) hG (fun i c hi hc' => by rw [h i c hi hc', fragStream hE hc hD hT hi])
  exact ⟨C', H', e', q, v⟩

/-- all that decoding of vertical streams can do, given fragments of an encoding -/
theorem decode_streams_vertical_spec (hE : E.VSpec st mk b0 Live) (hpkt : 0 < E.base.pkt_size) {C0 : CtxB} {H : Heap}
    (hL : Live C0 H) {D : Nat → List Nat} {T : Nat}
    {datas pars outs : Array (Option (List Nat))} {props : Array Properties} (mem : Nat → Nat) (junk : Nat → Nat → Nat)
    (hD : ∀ i, i < E.base.n_data → ∀ x ∈ D i, x < 256)
    (hT : ∀ i, i < E.base.n_data → (D i).length = T * E.base.word_size)
    (h1 : E.base.sys = true → datas.size = E.base.n_data) (h2 : pars.size = E.base.n_outputs)
    (h3 : props.size = E.base.n_outputs) (h4 : outs.size = E.base.n_data)
    (hdat : E.base.sys = true → ∀ i s, gt datas i = some s → s = D i)
    (hpar : ∀ f s, f < E.base.n_outputs → gt pars f = some s →
      s = flat E.base.word_size (fun t => st (rowAt E.base.word_size E.base.n_data D t) f) T ∧
      gt props f = ⟨marksOf (fun t => mk (rowAt E.base.word_size E.base.n_data D t) f) T⟩) :
    ∃ res, E.decode_streams_vertical datas pars props outs mem junk H = .ok res ∧ Live C0 res.2.2 ∧
      (if (E.base.dataList (datas.map Option.isSome)).length = E.base.n_data then res = (true, outs, H)
       else if (E.base.dataList (datas.map Option.isSome)).length +
          (present (pars.map Option.isSome) E.base.n_outputs).length < E.base.n_data then res = (false, outs, H)
       else res.1 = true ∧ res.2.1.size = E.base.n_data ∧ ∀ i, i < E.base.n_data →
          gt res.2.1 i = (gt outs i).map (fun s => s ++ D i)) := by
  have hk := hE.kpos
  have hwp := hE.w.pos
  have hsel := E.base.selectFragments_spec hk (data := datas.map Option.isSome) (parities := pars.map Option.isSome) mem
    (fun h => by simp [h1 h]) (by simp [h2])
  have hred : ∀ (f : Select → Res (Bool × Array (Option (List Nat)) × Heap)),
      (do
        if E.base.sys then cassert (decide (datas.size = E.base.n_data)) else pure ()
        cassert (decide (pars.size = E.base.n_outputs))
        cassert (decide (props.size = E.base.n_outputs))
        cassert (decide (outs.size = E.base.n_data))
        let sel ← E.base.selectFragments (datas.map Option.isSome) (pars.map Option.isSome) mem
        f sel) = (E.base.selectFragments (datas.map Option.isSome) (pars.map Option.isSome) mem >>= f) := by
    intro f
    by_cases hs : E.base.sys = true
    · simp [hs, cassert, h1 hs, h2, h3, h4]
    · simp only [hs, Bool.false_eq_true, if_false, cassert, h2, h3, h4, decide_true, if_true]
      rfl
  have hgo : E.decode_streams_vertical datas pars props outs mem junk H =
      (E.base.selectFragments (datas.map Option.isSome) (pars.map Option.isSome) mem >>= fun sel =>
        match sel with
        | .allData => pure (true, outs, H)
        | .tooFew => pure (false, outs, H)
        | .use ids apar nd => do
          let ids := (ids.toList.mergeSort (fun x y => decide (x ≤ y))).toArray
          let (H, words) := Bufs.full junk H E.base.n_data E.base.pkt_size
          let (H, output) := Bufs.full junk H E.base.n_data E.base.pkt_size
          let (H, C, props) ← E.init_context_dec ids props E.base.pkt_size output mem junk H
          let (outs, H) ← E.decLoop words output ids apar nd props (maxLen datas + maxLen pars + 2) datas pars outs E.buf_size 0
            ⟨C, H, freshChars junk E.base.n_data E.buf_size, freshChars junk E.base.n_data E.buf_size⟩
          pure (true, outs, H)) := hred _
  rw [hgo, hsel, ok_bind]
  by_cases hall : (E.base.dataList (datas.map Option.isSome)).length = E.base.n_data
  · exact ⟨(true, outs, H), by rw [if_pos hall]; rfl, hL, by rw [if_pos hall]⟩
  by_cases hfew : (E.base.dataList (datas.map Option.isSome)).length +
      (present (pars.map Option.isSome) E.base.n_outputs).length < E.base.n_data
  · exact ⟨(false, outs, H), by rw [if_neg hall, if_pos hfew]; rfl, hL, by rw [if_neg hall, if_pos hfew]⟩
  rw [if_neg hall, if_neg hfew]
  have hc := chosen_spec E.base hall hfew
  generalize (E.base.dataList (datas.map Option.isSome) ++ (E.base.parList (datas.map Option.isSome) (pars.map Option.isSome)).map
    (fun i => if E.base.sys then E.base.n_data + i else i)).toArray = ids at hc ⊢
  generalize (E.base.parList (datas.map Option.isSome) (pars.map Option.isSome)).toArray = apar at hc ⊢
  generalize (E.base.dataList (datas.map Option.isSome)).length = nd at hc hall hfew ⊢
  have hpm : ∀ i, i < E.base.n_data - nd → gt pars (gt apar i)
      = some (flat E.base.word_size (fun t => st (rowAt E.base.word_size E.base.n_data D t) (gt apar i)) T) ∧
      gt props (gt apar i) = ⟨marksOf (fun t => mk (rowAt E.base.word_size E.base.n_data D t) (gt apar i)) T⟩ := by
    intro i hi
    obtain ⟨q1, q2, _⟩ := hc.par i hi
    obtain ⟨_, s, hs⟩ := Fec.isSome_mask q2
    obtain ⟨q3, q4⟩ := hpar _ s q1 hs
    exact ⟨by rw [hs, q3], q4⟩
  obtain ⟨H1, H2, wm, om, e1, e2, hio, hL2⟩ := alloc_spec hE hL junk E.base.n_data
  obtain ⟨wz, wg⟩ := freshChars_spec junk E.base.n_data E.buf_size
  obtain ⟨Good, H3, C, props', e3, g0, g1, g2, g3⟩ := dec_start hE hc hD hT hL2 h3 (fun i hi => (hpm i hi).2) hio mem junk
  obtain ⟨outs', H4, C', t', e4, gf, so, ho⟩ := decLoop_spec hE hpkt (k := E.base.n_data) (nd := nd) (w := E.base.word_size) (T := T)
    (rows := rowAt E.base.word_size E.base.n_data D) (ids := ids) (apar := apar) (wm := wm) (om := om) (props := props')
    (Good := Good) (S := fun i => if i < nd then D (gt ids i)
        else flat E.base.word_size (fun t => st (rowAt E.base.word_size E.base.n_data D t) (gt apar (i - nd))) T) (O := gt outs)
    (sys := E.base.sys) rfl rfl rfl hc.lt hc.ndz
    (fun i j hi hj he => hc.valid.inj i j (by have := hc.lt; omega) (by have := hc.lt; omega) he)
    (by rw [hc.valid.size]; exact hc.lt.le) hc.ainj hc.asz.ge
    (fun i hi => by
      by_cases hn : i < nd
      · simp only [if_pos hn]; exact hT _ (hc.data i hn).2.1
      · simp only [if_neg hn]; rw [flat_length])
    (fun h => (g1 h).2) g2 (fun {off C H} h5 h6 h7 => by
      obtain ⟨C', H', q1, q2, q3⟩ := g3 h5 h6 h7
      exact ⟨C', H', q1, q2, fun i c hi hc' => congrArg (· % _) (q3 i c hi hc')⟩)
    hio.wsz hio.osz hio.inj (d := T) (off := 0) (fuel := maxLen datas + maxLen pars + 2)
    (datas := datas) (pars := pars) (outs := outs) (s := ⟨C, H3, freshChars junk E.base.n_data E.buf_size,
      freshChars junk E.base.n_data E.buf_size⟩) (by omega) (by omega) (by
      have h5 := maxLen_ge (hpm 0 (by have := hc.lt; omega)).1
      rw [flat_length] at h5
      have : T * 1 ≤ T * E.base.word_size := Nat.mul_le_mul_left _ hwp
      omega)
    (fun i hi => by
      obtain ⟨q1, q2, q3⟩ := hc.data i hi
      obtain ⟨q4, s, q5⟩ := Fec.isSome_mask q3
      refine ⟨q4, ?_⟩
      rw [q5, hdat q1 _ _ q5]
      simp [hi])
    (fun i hi => by
      refine ⟨by rw [h2]; exact (hc.par i hi).1, ?_⟩
      rw [(hpm i hi).1]
      simp)
    h4 (fun i hi => by simp [flat_zero]) g0 wz.ge wz.ge wg
  refine ⟨(true, outs', H4), ?_, (g1 gf).1, ?_⟩
  · simp only
    rw [hc.sorted, e1]
    simp only
    rw [e2]
    simp only
    rw [e3, ok_bind]
    simp only
    rw [e4, ok_bind]
    rfl
  · rw [if_neg hall, if_neg hfew]
    refine ⟨rfl, so, fun i hi => ?_⟩
    rw [ho i hi]
    congr 1
    funext s
    rw [flat_congr (g := wordAt E.base.word_size (D i)) (fun t _ => rowAt_gt hi), flat_wordAt (hT i hi).ge (hD i hi),
      List.take_of_length_le (hT i hi).le]

end FecV
end Quad
