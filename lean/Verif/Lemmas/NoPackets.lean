import Verif.Lemmas.FecVert
import Verif.Lemmas.FecBlock

/-!
# Encoding packets with the empty function of the base class

What is written only depends on the memory the output buffers are allocated in.
-/

namespace Quad
namespace FecV
variable {E : FecV}

/-- the blocks of the words and of the outputs, and what the latter contain -/
structure Idle (E : FecV) (wm om : Array Nat) (g : Nat → Nat → Nat) (H : Heap) : Prop where
  wsz : wm.size = E.base.n_data
  osz : om.size = E.get_n_outputs
  inj : InjPtr (wm ++ om)
  ok : Okb E.base.pkt_size H (wm ++ om)
  val : ∀ f c, f < E.get_n_outputs → el H (gt om f) c = g f c

theorem idleStep_spec (hE : E.encode = defaultEncode) (hw : WordSize E.base.word_size) (hb : 8 * E.base.word_size ≤ E.b)
    {wm om : Array Nat} {g : Nat → Nat → Nat} {off : Nat} {s : EncSt}
    (hio : Idle E wm om g s.H) (hw1 : E.base.n_data ≤ s.words_char.size)
    (hw2 : ∀ i, i < E.base.n_data → (gt s.words_char i).size = E.buf_size)
    (ho1 : E.get_n_outputs ≤ s.out_char.size) (ho2 : ∀ i, i < E.get_n_outputs → (gt s.out_char i).size = E.buf_size) :
    ∃ s', E.encStep ⟨wm, E.base.n_data, E.base.pkt_size⟩ ⟨om, E.get_n_outputs, E.base.pkt_size⟩ off s = .ok s' ∧
      s'.words_char = s.words_char ∧ s'.props = s.props ∧ Idle E wm om g s'.H ∧
      E.get_n_outputs ≤ s'.out_char.size ∧ (∀ i, i < E.get_n_outputs → (gt s'.out_char i).size = E.buf_size) ∧
      ∀ f, f < E.get_n_outputs → gt s'.out_char f = (flat E.base.word_size (g f) E.base.pkt_size).toArray := by
  have hws := hio.wsz
  obtain ⟨H1, e1, f1, ok1, _⟩ := pack_spec (b := E.b) (w := E.base.word_size) (n := E.base.n_data) (pkt := E.base.pkt_size)
    (src := s.words_char) (dest := wm) (H := s.H) hw hb hw1 hws hw2 hio.inj.left (hio.ok.sub (SubPtr.left _ _))
  have okm : Okb E.base.pkt_size H1 (wm ++ om) := ok1.append ((hio.ok.sub (SubPtr.right _ _)).frame f1 hio.inj.disj)
  have hval : ∀ f c, f < E.get_n_outputs → el H1 (gt om f) c = g f c := by
    intro f c hf
    rw [← hio.val f c hf]
    unfold el
    rw [f1.out _ (fun i hi => hio.inj.disj i f hi (by rw [hio.osz]; exact hf))]
  obtain ⟨oc, e3, s3, g3⟩ := unpack_spec (b := E.b) (w := E.base.word_size) (n := E.get_n_outputs) (pkt := E.base.pkt_size)
    (src := om) (dest := s.out_char) (H := H1) hw hb hio.osz.ge ho1 ho2 (okm.sub (SubPtr.right _ _))
  have g4 : ∀ f, f < E.get_n_outputs → gt oc f = (flat E.base.word_size (g f) E.base.pkt_size).toArray := by
    intro f hf
    rw [g3 f hf]
    congr 1
    exact flat_congr (fun c _ => hval f c hf)
  refine ⟨{ s with H := H1, out_char := oc }, ?_, rfl, rfl, ⟨hws, hio.osz, hio.inj, okm, hval⟩, by rw [← s3] at ho1; exact ho1, ?_, g4⟩
  · unfold encStep
    simp only
    rw [e1, ok_bind, hE]
    unfold defaultEncode
    rw [ok_bind]
    simp only
    rw [e3, ok_bind]
    rfl
  · intro i hi
    show (gt oc i).size = _
    rw [g4 i hi, List.size_toArray, flat_length]; rfl

/-- the bytes written after `off` words: a packet of the old contents again and again -/
def idle (w pkt : Nat) (g : Nat → Nat) (T : Nat) : List Nat := flat w (fun t => g (t % pkt)) T

theorem idle_add {w pkt : Nat} (g : Nat → Nat) (n : Nat) : idle w pkt g (n * pkt + pkt) = idle w pkt g (n * pkt) ++ flat w g pkt := by
  unfold idle
  rw [flat_add]
  congr 1
  refine flat_congr fun c hc => ?_
  rw [Nat.mul_comm n pkt, Nat.mul_add_mod, Nat.mod_eq_of_lt hc]

theorem flat_take_le {w : Nat} {f : Nat → Nat} {T1 T2 L : Nat} (h : T1 ≤ T2) (hL : L ≤ T1 * w) : (flat w f T1).take L = (flat w f T2).take L := by
  obtain ⟨d, rfl⟩ : ∃ d, T2 = T1 + d := ⟨T2 - T1, by omega⟩
  rw [flat_add, List.take_append_of_le_length (by rw [flat_length]; exact hL)]

/-- the loop on streams of `L` bytes, after `p` packets -/
theorem idleLoop_spec (hE : E.encode = defaultEncode) (hw : WordSize E.base.word_size) (hb : 8 * E.base.word_size ≤ E.b)
    (hk : 0 < E.base.n_data) (hpkt : 0 < E.base.pkt_size) (hout : E.base.n_outputs ≤ E.get_n_outputs) {D : Nat → List Nat} {L : Nat}
    {O : Nat → List Nat} {g : Nat → Nat → Nat} {wm om : Array Nat} (hT : ∀ i, i < E.base.n_data → (D i).length = L) {d : Nat} :
    ∀ {p fuel : Nat} {ins outs : Array (Option (List Nat))} {s : EncSt}, p * E.buf_size ≤ L → L ≤ (p + d) * E.buf_size → d < fuel →
      ins.size = E.base.n_data → (∀ i, i < E.base.n_data → gt ins i = some ((D i).drop (p * E.buf_size))) →
      outs.size = E.base.n_outputs →
      (∀ f, f < E.base.n_outputs → gt outs f = some (O f ++ idle E.base.word_size E.base.pkt_size (g f) (p * E.base.pkt_size))) →
      Idle E wm om g s.H → s.words_char.size = E.base.n_data →
      E.get_n_outputs ≤ s.out_char.size → (∀ i, i < E.get_n_outputs → (gt s.out_char i).size = E.buf_size) →
      ∃ outs' s', E.encLoop ⟨wm, E.base.n_data, E.base.pkt_size⟩ ⟨om, E.get_n_outputs, E.base.pkt_size⟩ fuel ins outs
          E.buf_size (p * E.base.pkt_size) s = .ok (outs', s') ∧ outs'.size = E.base.n_outputs ∧ s'.props = s.props ∧
        ∀ f, f < E.base.n_outputs →
          gt outs' f = some (O f ++ (idle E.base.word_size E.base.pkt_size (g f) (L + E.base.pkt_size)).take L) := by
  have hwp := hw.pos
  have hbs : E.buf_size = E.base.pkt_size * E.base.word_size := rfl
  have hbp : 0 < E.buf_size := by rw [hbs]; exact Nat.mul_pos hpkt hwp
  have hpk : ∀ {p : Nat}, p * E.buf_size ≤ L → p * E.base.pkt_size ≤ L := fun {p} h => by
    refine le_trans ?_ h
    rw [hbs, ← Nat.mul_assoc]
    exact Nat.le_mul_of_pos_right _ hwp
  have hend : ∀ {f p : Nat}, p * E.buf_size = L →
      (idle E.base.word_size E.base.pkt_size (g f) (L + E.base.pkt_size)).take L = idle E.base.word_size E.base.pkt_size (g f) (p * E.base.pkt_size) := by
    intro f p h
    have h1 := hpk h.le
    unfold idle
    rw [← flat_take_le (T1 := p * E.base.pkt_size) (by omega) (by rw [← h, hbs, Nat.mul_assoc]), List.take_of_length_le]
    rw [flat_length, ← h, hbs, Nat.mul_assoc]
  induction d with
  | zero =>
    intro p fuel ins outs s ho hd hfuel hi1 hi2 ho1 ho2 hio hw1 hc1 hc2
    have hoL : p * E.buf_size = L := le_antisymm ho hd
    obtain ⟨fuel, rfl⟩ : ∃ f, fuel = f + 1 := ⟨fuel - 1, by omega⟩
    obtain ⟨ins', wc', e, _⟩ := readPkts_spec (buf := E.buf_size) (count := E.base.n_data) (dst := 0) (r := 0)
      (idx := fun i => .ok i) (ix := id) (streams := ins) (wc := s.words_char) (rb := E.buf_size) (cont := true)
      (R := fun i => (D i).drop (p * E.buf_size)) (fun i _ => rfl) (fun i j _ _ h => h) (fun i hi => by simp only [id]; omega)
      hi2 (fun i hi => by rw [List.length_drop, hT i hi]; omega) (by omega)
    rw [if_pos ⟨hk, hbp⟩, if_pos ⟨hk, hbp⟩] at e
    refine ⟨outs, { s with words_char := wc' }, ?_, ho1, rfl, fun f hf => ?_⟩
    · unfold encLoop
      rw [e, ok_bind]
      simp only
      rw [if_pos trivial]
      rfl
    · rw [hend hoL, ho2 f hf]
  | succ d ih =>
    intro p fuel ins outs s ho hd hfuel hi1 hi2 ho1 ho2 hio hw1 hc1 hc2
    obtain ⟨fuel, rfl⟩ : ∃ f, fuel = f + 1 := ⟨fuel - 1, by omega⟩
    obtain ⟨ins', wc', e, r1, r2, r3, r4, _⟩ := readPkts_spec (buf := E.buf_size) (count := E.base.n_data) (dst := 0) (r := L - p * E.buf_size)
      (idx := fun i => .ok i) (ix := id) (streams := ins) (wc := s.words_char) (rb := E.buf_size) (cont := true)
      (R := fun i => (D i).drop (p * E.buf_size)) (fun i _ => rfl) (fun i j _ _ h => h) (fun i hi => by simp only [id]; omega)
      hi2 (fun i hi => by rw [List.length_drop, hT i hi]) (by omega)
    simp only [Nat.zero_add] at r4
    obtain ⟨s', e', q1, q2, q3, q4, q5, q6⟩ := idleStep_spec hE hw hb (wm := wm) (om := om) (off := p * E.base.pkt_size)
      (s := { s with words_char := wc' }) hio (by show E.base.n_data ≤ wc'.size; omega)
      (fun i hi => by show (gt wc' i).size = _; rw [r4 i hi, padPkt_size]) hc1 hc2
    have hF : ∀ f, f < E.base.n_outputs → gt s'.out_char f = (flat E.base.word_size (g f) E.base.pkt_size).toArray :=
      fun f hf => q6 f (by omega)
    by_cases hlast : L - p * E.buf_size < E.buf_size
    · rw [if_pos ⟨hk, hlast⟩, if_pos ⟨hk, hlast⟩] at e
      by_cases hz : L - p * E.buf_size = 0
      · have hoL : p * E.buf_size = L := by omega
        refine ⟨outs, { s with words_char := wc' }, ?_, ho1, rfl, fun f hf => ?_⟩
        · unfold encLoop
          rw [e, ok_bind]
          simp only
          rw [if_pos hz]
          rfl
        · rw [hend hoL, ho2 f hf]
      · obtain ⟨outs', eo, o1, o2⟩ := writePkts_bytes (w := E.base.word_size) (n := L - p * E.buf_size) (N := E.base.n_outputs)
          (pkt := E.base.pkt_size) (oc := s'.out_char) (outs := outs) (f := g) (by omega) ho1.ge (by rw [← hbs]; omega) hF
        refine ⟨outs', s', ?_, by omega, q2, fun f hf => ?_⟩
        · unfold encLoop
          rw [e, ok_bind]
          simp only
          rw [if_neg hz, e', ok_bind, eo, ok_bind, if_neg (by simp)]
          rfl
        · rw [o2 f hf, ho2 f hf]
          simp only [Option.map_some]
          rw [List.append_assoc]
          congr 2
          have h1 := hpk ho
          have h2 : p * E.base.pkt_size * E.base.word_size = p * E.buf_size := by rw [hbs, Nat.mul_assoc]
          have h3 : L ≤ (p * E.base.pkt_size + E.base.pkt_size) * E.base.word_size := by rw [Nat.add_mul, h2, ← hbs]; omega
          have h4 := flat_take_le (w := E.base.word_size) (f := fun t => g f (t % E.base.pkt_size))
            (show p * E.base.pkt_size + E.base.pkt_size ≤ L + E.base.pkt_size by omega) h3
          have h5 := idle_add (w := E.base.word_size) (pkt := E.base.pkt_size) (g f) p
          unfold idle at h5 ⊢
          have h6 := List.take_of_length_le (l := flat E.base.word_size (fun t => g f (t % E.base.pkt_size)) (p * E.base.pkt_size)) (i := L)
            (by rw [flat_length, h2]; exact ho)
          rw [← h4, h5, List.take_append, h6, flat_length, h2]
    · rw [if_neg (fun h => hlast h.2), if_neg (fun h => hlast h.2)] at e
      obtain ⟨outs', eo, o1, o2⟩ := writePkts_spec (w := E.base.word_size) (n := E.base.pkt_size) (N := E.base.n_outputs)
        (pkt := E.base.pkt_size) (oc := s'.out_char) (outs := outs) (f := g) (by omega) ho1.ge le_rfl hF
      have hp1 : (p + 1) * E.buf_size = p * E.buf_size + E.buf_size := by rw [Nat.add_mul, Nat.one_mul]
      obtain ⟨res, sf, ef, t1, t2, t3⟩ := ih (p := p + 1) (fuel := fuel) (ins := ins') (outs := outs') (s := s') (by omega)
        (by rw [show p + 1 + d = p + (d + 1) by omega]; exact hd) (by omega) (by omega) (fun i hi => by
          have := r3 i hi
          simp only [id] at this
          rw [this, List.drop_drop, hp1]) (by omega) (fun f hf => by
          rw [o2 f hf, ho2 f hf]
          simp only [Option.map_some]
          rw [List.append_assoc, Nat.add_mul, Nat.one_mul, idle_add]) q3 (by rw [q1]; exact r2.trans hw1) q4 q5
      refine ⟨res, sf, ?_, t1, t2.trans q2, t3⟩
      unfold encLoop
      rw [e, ok_bind]
      simp only
      rw [if_neg (by omega), e', ok_bind]
      have eo' : writePkts E.base.n_outputs E.buf_size s'.out_char outs = .ok outs' := eo
      rw [eo', ok_bind, if_pos trivial]
      rw [Nat.add_mul, Nat.one_mul] at ef
      exact ef

/-- the loop on blocks of `T` words, after `p` packets -/
theorem idleBlockLoop_spec (hE : E.encode = defaultEncode) (hw : WordSize E.base.word_size) (hb : 8 * E.base.word_size ≤ E.b)
    (hpkt : 0 < E.base.pkt_size) (hout : E.base.n_outputs ≤ E.get_n_outputs) {B : Nat → Array Nat} {T : Nat}
    {g : Nat → Nat → Nat} {wm om : Array Nat} {datas pars0 : Array (Option (Array Nat))} {wanted : Array Bool}
    (hds : datas.size = E.base.n_data) (hdat : ∀ i, i < E.base.n_data → gt datas i = some (B i))
    (hT : ∀ i, i < E.base.n_data → T * E.base.word_size ≤ (B i).size) (hwz : E.base.n_outputs ≤ wanted.size)
    (hwant : ∀ i, i < E.base.n_outputs → gt wanted i = true → ∃ d, gt pars0 i = some d ∧ T * E.base.word_size ≤ d.size)
    {d : Nat} : ∀ {p fuel : Nat} {pars : Array (Option (Array Nat))} {s : EncSt}, T ≤ (p + d) * E.base.pkt_size → d < fuel →
      pars.size = E.base.n_outputs →
      (∀ f, f < E.base.n_outputs → gt pars f = Written E.base.word_size wanted (fun f t => g f (t % E.base.pkt_size)) pars0
        (min (p * E.base.pkt_size) T) f) →
      Idle E wm om g s.H → s.words_char.size = E.base.n_data →
      (∀ i, i < E.base.n_data → (gt s.words_char i).size = E.buf_size) →
      E.get_n_outputs ≤ s.out_char.size → (∀ i, i < E.get_n_outputs → (gt s.out_char i).size = E.buf_size) →
      ∃ pars' s', E.encBlockLoop ⟨wm, E.base.n_data, E.base.pkt_size⟩ ⟨om, E.get_n_outputs, E.base.pkt_size⟩ datas wanted T fuel
          pars (p * E.base.pkt_size) s = .ok (pars', s') ∧ pars'.size = E.base.n_outputs ∧ s'.props = s.props ∧
        ∀ f, f < E.base.n_outputs →
          gt pars' f = Written E.base.word_size wanted (fun f t => g f (t % E.base.pkt_size)) pars0 T f := by
  have hwp := hw.pos
  set w := E.base.word_size with hwd
  set k := E.base.n_data with hkd
  set pkt := E.base.pkt_size with hpd
  have hbs : E.buf_size = pkt * w := rfl
  have hdone : ∀ {p fuel : Nat} {pars : Array (Option (Array Nat))} {s : EncSt}, T ≤ p * pkt → 0 < fuel → pars.size = E.base.n_outputs →
      (∀ f, f < E.base.n_outputs → gt pars f = Written w wanted (fun f t => g f (t % pkt)) pars0 (min (p * pkt) T) f) →
      ∃ pars' s', E.encBlockLoop ⟨wm, k, pkt⟩ ⟨om, E.get_n_outputs, pkt⟩ datas wanted T fuel
          pars (p * pkt) s = .ok (pars', s') ∧ pars'.size = E.base.n_outputs ∧ s'.props = s.props ∧
        ∀ f, f < E.base.n_outputs → gt pars' f = Written w wanted (fun f t => g f (t % pkt)) pars0 T f := by
    intro p fuel pars s h hf h1 h2
    obtain ⟨fuel, rfl⟩ : ∃ f, fuel = f + 1 := ⟨fuel - 1, by omega⟩
    rw [min_eq_right h] at h2
    refine ⟨pars, s, ?_, h1, rfl, h2⟩
    unfold encBlockLoop
    rw [if_neg (by omega)]
    rfl
  induction d with
  | zero =>
    intro p fuel pars s hd hfuel h1 h2 _ _ _ _ _
    exact hdone hd hfuel h1 h2
  | succ d ih =>
    intro p fuel pars s hd hfuel h1 h2 hio hw1 hw2 hc1 hc2
    rcases Nat.lt_or_ge (p * pkt) T with hlt | hge
    swap
    · exact hdone hge (by omega) h1 h2
    obtain ⟨fuel, rfl⟩ : ∃ f, fuel = f + 1 := ⟨fuel - 1, by omega⟩
    rw [min_eq_left hlt.le] at h2
    have hcs : min pkt (T - p * pkt) * w ≤ (T - p * pkt) * w := Nat.mul_le_mul_right _ (min_le_right _ _)
    have hcp : min pkt (T - p * pkt) * w ≤ pkt * w := Nat.mul_le_mul_right _ (min_le_left _ _)
    have hTo : p * pkt * w + (T - p * pkt) * w = T * w := by rw [← Nat.add_mul, show p * pkt + (T - p * pkt) = T by omega]
    obtain ⟨wc1, e1, z1, r1, _⟩ := readBlocks_spec (count := k) (dst := 0) (off := p * pkt * w) (len := min pkt (T - p * pkt) * w)
      (idx := fun i => .ok i) (ix := id) (blocks := datas) (wc := s.words_char) (R := B) (fun i _ => rfl)
      (fun i hi => by simp only [id]; omega) hdat (fun i hi => by have := hT i hi; omega) (by omega)
      (fun i hi => by rw [Nat.zero_add, hw2 i hi]; omega)
    simp only [Nat.zero_add] at r1
    obtain ⟨wc, hwcd⟩ : ∃ wc, wc = if min pkt (T - p * pkt) < pkt then wc1.map (fun c => zeroTail c (min pkt (T - p * pkt) * w)) else wc1 :=
      ⟨_, rfl⟩
    have hwcs : wc.size = k := by rw [hwcd]; split <;> (try rw [Array.size_map]) <;> omega
    have hsz1 : ∀ i, i < k → (gt wc1 i).size = pkt * w := by
      intro i hi
      have h3 := hT i hi
      have h4 := hw2 i hi
      rw [r1 i hi, List.size_toArray, List.length_append, List.length_take, List.length_drop, List.length_drop, Array.length_toList,
        Array.length_toList]
      omega
    have hsz : ∀ i, i < k → (gt wc i).size = E.buf_size := by
      intro i hi
      rw [hwcd, hbs]
      split
      · rw [gt_map (by omega)]
        unfold zeroTail
        rw [Array.size_append, Array.size_extract, Array.size_replicate, hsz1 i hi]
        omega
      · exact hsz1 i hi
    obtain ⟨s', e', q1, q2, q3, q4, q5, q6⟩ := idleStep_spec hE hw hb (wm := wm) (om := om) (off := p * pkt)
      (s := { s with words_char := wc }) hio hwcs.ge hsz hc1 hc2
    obtain ⟨pars', eo, o1, o2⟩ := writeBlocks_spec (w := w) (n := E.base.n_outputs) (off := p * pkt) (c := min pkt (T - p * pkt)) (pkt := pkt)
      (wanted := wanted) (oc := s'.out_char) (F := fun f t => g f (t % pkt)) (blocks0 := pars0) (blocks := pars) hwz h1.ge
      (le_trans hout q4) (fun i hi hw => by
        obtain ⟨x, h3, h4⟩ := hwant i hi hw
        exact ⟨x, h3, by rw [Nat.add_mul]; omega⟩) h2 (min_le_left _ _) (fun f hf => by
        rw [q6 f (by omega)]
        congr 1
        refine flat_congr fun c hc => ?_
        rw [Nat.mul_comm p pkt, Nat.mul_add_mod, Nat.mod_eq_of_lt hc])
    have hp1 : (p + 1) * pkt = p * pkt + pkt := by rw [Nat.add_mul, Nat.one_mul]
    have hmin : min ((p + 1) * pkt) T = p * pkt + min pkt (T - p * pkt) := by rw [hp1]; omega
    obtain ⟨res, sf, ef, t1, t2, t3⟩ := ih (p := p + 1) (fuel := fuel) (pars := pars') (s := s')
      (by rw [show p + 1 + d = p + (d + 1) by omega]; exact hd) (by omega) (by omega) (fun f hf => by rw [o2 f hf, hmin]) q3
      (by rw [q1]; exact hwcs) (fun i hi => by rw [q1]; exact hsz i hi) q4 q5
    have hsd : statDiv (min pkt (T - p * pkt) * w) = .ok () := by
      unfold statDiv
      rw [if_neg (Nat.mul_ne_zero (by omega) (by omega))]
    refine ⟨res, sf, ?_, t1, t2.trans q2, t3⟩
    unfold encBlockLoop
    rw [if_pos hlt]
    simp only
    rw [e1, ok_bind, ← hwcd, e', ok_bind, hsd, ok_bind, eo, ok_bind]
    rw [hp1] at ef
    exact ef

end FecV
end Quad
