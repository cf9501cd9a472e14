import Verif.Lemmas.FecNf4Any
import Verif.Lemmas.FecNf4Buf
import Verif.Lemmas.Packets

/-!
# Decoding of packets with any contents and any properties, packed Fermat code
-/

namespace Quad
open Finset Polynomial Spec NF4

namespace RsNf4Obj
variable {R : RsNf4Obj}

/-- what `decode_prepare` makes of the word `x` at location `t` of a fragment with the sorted properties `P` -/
def seenWord (N : NF4) (P : Properties) (t x : Nat) : Nat :=
  if P.is_marked (walk P t) t then N.packFlag x (P.marker (walk P t)) else N.pack x

theorem seenWord_eq {N : NF4} {b lanes : Nat} {simd : Option (Nat × (Nat → Nat))} (H : IsNf4 N b lanes simd) {P : Properties}
    (t : Nat) {x : Nat} (hx : x < 2 ^ (16 * lanes)) :
    seenWord N P.sort t x = NF4.word 32 (IsNf4.wide lanes simd) (RsNf4.laneVal x (flagAt P t)) := by
  have hfl := walk_flag P t
  unfold seenWord
  by_cases hm : P.sort.is_marked (walk P.sort t) t = true
  · rw [if_pos hm] at hfl ⊢
    rw [hfl, H.packFlag_wide]
    rfl
  · rw [if_neg hm] at hfl ⊢
    rw [H.pack_eq hx, ← NF4.word_shrink (f := fun l => lane16 x l) H.le_wide (fun l hl _ => NF4.lane_oob hx hl)]
    refine word_congr (fun l _ => ?_)
    unfold RsNf4.laneVal
    rw [← hfl]; simp

theorem prepLoop_any {props : Array Properties} {chunk frag off : Nat} {pi : Array Nat} {H : Heap}
    (hc : chunk < H.size) (hs : (gt H chunk).size = R.code.base.pkt_size) (hf : frag < props.size) (hfp : frag < pi.size)
    (hpi : gt pi frag = walk (gt props frag) off) :
    ∃ pi' H', R.prepLoop props chunk frag off pi H = .ok (pi', H') ∧ OnlyAt chunk H H' ∧ (gt H' chunk).size = R.code.base.pkt_size ∧
      (∀ c, c < R.code.base.pkt_size → el H' chunk c = seenWord R.N (gt props frag) (off + c) (el H chunk c)) ∧ pi'.size = pi.size ∧
      gt pi' frag = walk (gt props frag) (off + R.code.base.pkt_size) ∧ ∀ f, f ≠ frag → gt pi' f = gt pi f := by
  set pkt := R.code.base.pkt_size with hpkt
  obtain ⟨s, e, i1, i2, i3, i4, i5, i6⟩ := forN_inv (n := pkt) (s := (pi, H)) (f := fun j s => do
      let P ← rd props frag
      let idx ← rd s.1 frag
      let x ← Heap.rdEl s.2 chunk j
      if P.is_marked idx (off + j) then do
        let H ← Heap.wrEl s.2 chunk j (R.N.packFlag x (P.marker idx))
        let pi ← wr s.1 frag (idx + 1)
        pure (pi, H)
      else do
        let H ← Heap.wrEl s.2 chunk j (R.N.pack x)
        pure (s.1, H))
    (I := fun t (s : Array Nat × Heap) => OnlyAt chunk H s.2 ∧ (gt s.2 chunk).size = pkt ∧
      (∀ c, gt (gt s.2 chunk) c = if c < t then seenWord R.N (gt props frag) (off + c) (el H chunk c) else el H chunk c) ∧ s.1.size = pi.size ∧
      gt s.1 frag = walk (gt props frag) (off + t) ∧ ∀ f, f ≠ frag → gt s.1 f = gt pi f)
    ⟨⟨rfl, fun _ _ => rfl⟩, hs, by simp [el], rfl, hpi, fun _ _ => rfl⟩ (by
      rintro t ⟨p, Ha⟩ ht ⟨i1, i2, i3, i4, i5, i6⟩
      simp only at i1 i2 i3 i4 i5 i6 ⊢
      have hca : chunk < Ha.size := by rw [i1.1]; exact hc
      have hHa : ∀ v, (OnlyAt chunk H (Ha.setIfInBounds chunk ((gt Ha chunk).setIfInBounds t v)) ∧
          (gt (Ha.setIfInBounds chunk ((gt Ha chunk).setIfInBounds t v)) chunk).size = pkt ∧
          ∀ c, gt (gt (Ha.setIfInBounds chunk ((gt Ha chunk).setIfInBounds t v)) chunk) c = if c = t then v else gt (gt Ha chunk) c) := by
        intro v
        refine ⟨⟨by simp [i1.1], fun b hb => by rw [gt_set hca, if_neg hb]; exact i1.2 b hb⟩, ?_, fun c => ?_⟩
        · rw [gt_set hca, if_pos rfl]; simpa using i2
        · rw [gt_set hca, if_pos rfl, gt_set (by omega)]
      have hval : ∀ c, (if c = t then seenWord R.N (gt props frag) (off + t) (el H chunk t) else gt (gt Ha chunk) c)
          = if c < t + 1 then seenWord R.N (gt props frag) (off + c) (el H chunk c) else el H chunk c := by
        intro c
        rw [i3]
        by_cases h : c = t
        · subst h; rw [if_pos rfl, if_pos (by omega)]
        · rw [if_neg h]
          by_cases h' : c < t
          · rw [if_pos h', if_pos (by omega)]
          · rw [if_neg h', if_neg (by omega)]
      have hx : gt (gt Ha chunk) t = el H chunk t := by rw [i3, if_neg (by omega)]
      have hts : t < (gt Ha chunk).size := by omega
      rw [rd_gt (a := props) hf, ok_bind, rd_gt (a := p) (by omega), ok_bind, Heap.rdEl_ok hca hts, ok_bind, hx, i5]
      by_cases hm : (gt props frag).is_marked (walk (gt props frag) (off + t)) (off + t) = true
      · rw [if_pos hm, Heap.wrEl_ok hca hts, ok_bind, wr_ok (by omega), ok_bind]
        obtain ⟨q1, q2, q3⟩ := hHa (R.N.packFlag (el H chunk t) ((gt props frag).marker (walk (gt props frag) (off + t))))
        have hsv : seenWord R.N (gt props frag) (off + t) (el H chunk t)
            = R.N.packFlag (el H chunk t) ((gt props frag).marker (walk (gt props frag) (off + t))) := by
          unfold seenWord; rw [if_pos hm]
        rw [hsv] at hval
        refine ⟨_, rfl, q1, q2, fun c => by rw [q3]; exact hval c, by simp [i4], ?_, ?_⟩
        · simp only
          rw [gt_set (by omega), if_pos rfl, ← Nat.add_assoc, walk, if_pos hm]
        · intro f hf'
          simp only
          rw [gt_set (by omega), if_neg hf']; exact i6 f hf'
      · rw [if_neg hm, Heap.wrEl_ok hca hts, ok_bind]
        obtain ⟨q1, q2, q3⟩ := hHa (R.N.pack (el H chunk t))
        have hsv : seenWord R.N (gt props frag) (off + t) (el H chunk t) = R.N.pack (el H chunk t) := by
          unfold seenWord; rw [if_neg hm]
        rw [hsv] at hval
        refine ⟨_, rfl, q1, q2, fun c => by rw [q3]; exact hval c, i4, ?_, i6⟩
        simp only
        rw [i5, ← Nat.add_assoc, walk, if_neg hm, Nat.add_zero])
  refine ⟨s.1, s.2, ?_, i1, i2, fun c hc' => by unfold el; rw [i3, if_pos hc']; rfl, i4, i5, i6⟩
  unfold prepLoop
  exact e

theorem decode_prepare_any {C : CtxB} {props : Array Properties} {off N : Nat} {words : Bufs} {H : Heap}
    (hids : ValidIds R.code.base.n_data N C.fragments_ids) (hps : props.size = N) (hpi : C.props_indices.size = N)
    (hpr : ∀ i, i < R.code.base.n_data → gt C.props_indices (gt C.fragments_ids i) = walk (gt props (gt C.fragments_ids i)) off)
    (hwn : words.n = R.code.base.n_data) (hwm : words.mem.size = R.code.base.n_data)
    (hinj : InjPtr words.mem) (hok : Okb R.code.base.pkt_size H words.mem) :
    ∃ pi H', R.decode_prepare C props off words H = .ok ({ C with props_indices := pi }, H') ∧ pi.size = N ∧ Frame words.mem H H' ∧
      Okb R.code.base.pkt_size H' words.mem ∧
      (∀ i, i < R.code.base.n_data → gt pi (gt C.fragments_ids i) = walk (gt props (gt C.fragments_ids i)) (off + R.code.base.pkt_size)) ∧
      ∀ i, i < R.code.base.n_data → ∀ c, c < R.code.base.pkt_size →
        el H' (gt words.mem i) c = seenWord R.N (gt props (gt C.fragments_ids i)) (off + c) (el H (gt words.mem i) c) := by
  have hsz := hids.size
  obtain ⟨s, e, i1, i2, i3, i4, _⟩ := forN_inv (n := R.code.base.n_data) (s := (C.props_indices, H)) (f := fun i s => do
      let frag_id ← rd C.fragments_ids i
      let chunk ← words.get i
      R.prepLoop props chunk frag_id off s.1 s.2)
    (I := fun t (s : Array Nat × Heap) => s.1.size = N ∧ Frame words.mem H s.2 ∧ Okb R.code.base.pkt_size s.2 words.mem ∧
      (∀ i, i < t → gt s.1 (gt C.fragments_ids i) = walk (gt props (gt C.fragments_ids i)) (off + R.code.base.pkt_size) ∧
        ∀ c, c < R.code.base.pkt_size →
          el s.2 (gt words.mem i) c = seenWord R.N (gt props (gt C.fragments_ids i)) (off + c) (el H (gt words.mem i) c)) ∧
      ∀ i, t ≤ i → i < R.code.base.n_data → gt s.2 (gt words.mem i) = gt H (gt words.mem i) ∧
        gt s.1 (gt C.fragments_ids i) = gt C.props_indices (gt C.fragments_ids i))
    ⟨hpi, Frame.refl _ _, hok, by simp, fun _ _ _ => ⟨rfl, rfl⟩⟩ (by
      rintro t ⟨p, Ha⟩ ht ⟨i1, i2, i3, i4, i5⟩
      simp only at i1 i2 i3 i4 i5 ⊢
      have hb := i3 t (by omega)
      have hlt := hids.lt t ht
      obtain ⟨a1, a2⟩ := i5 t le_rfl ht
      rw [rd_gt (a := C.fragments_ids) (by omega), ok_bind, Bufs.get_ok (by omega) (by omega), ok_bind]
      obtain ⟨p', H', ep, o, sz, v, sp, g1, g2⟩ := prepLoop_any (R := R) (props := props) (off := off) (pi := p)
        hb.1 hb.2 (show gt C.fragments_ids t < props.size by omega) (by omega) (by rw [a2]; exact hpr t ht)
      have hne : ∀ f, f < words.mem.size → f ≠ t → gt words.mem f ≠ gt words.mem t := fun f hf hft he =>
        hft (hinj f t hf (by omega) he)
      have hne2 : ∀ f, f < R.code.base.n_data → f ≠ t → gt C.fragments_ids f ≠ gt C.fragments_ids t := fun f hf hft he =>
        hft (hids.inj f t hf ht he)
      refine ⟨_, ep, by simp only; omega, ?_, ?_, ?_, ?_⟩
      · refine ⟨by simp only; rw [o.1, i2.size], fun b hb' => ?_⟩
        simp only
        rw [o.2 b (fun he => hb' t (by omega) he.symm)]
        exact i2.out b hb'
      · intro f hf
        simp only
        refine ⟨by rw [o.1]; exact (i3 f hf).1, ?_⟩
        by_cases h : f = t
        · subst h; exact sz
        · rw [o.2 _ (hne f hf h)]; exact (i3 f hf).2
      · intro f hf
        simp only
        by_cases h : f = t
        · subst h
          refine ⟨g1, fun c hc => ?_⟩
          rw [v c hc]
          unfold el
          rw [a1]
        · obtain ⟨b1, b2⟩ := i4 f (by omega)
          refine ⟨by rw [g2 _ (hne2 f (by omega) h), b1], fun c hc => ?_⟩
          rw [← b2 c hc]
          unfold el
          rw [o.2 _ (hne f (by omega) h)]
      · intro f hf hf'
        simp only
        rw [o.2 _ (hne f (by omega) (by omega)), g2 _ (hne2 f hf' (by omega))]
        exact i5 f (by omega) hf')
  refine ⟨s.1, s.2, ?_, i1, i2, i3, fun i hi => (i4 i hi).1, fun i hi => (i4 i hi).2⟩
  unfold decode_prepare
  rw [e, ok_bind]
  rfl

variable {b lanes k m n len_2k : Nat} {simd : Option (Nat × (Nat → Nat))} {S : Fin lanes → R.code.base.F.Sim (ZMod 65537)}
  {g g2 : ZMod 65537} {okLen okB okB2 : Nat → Prop}

/-- `decode` on packets of any contents -/
theorem decode_any (G : R.Built b lanes simd k m S n len_2k g g2 okLen okB okB2) {C : CtxB} {H : Heap} {z : Nat} {ids wm om : Array Nat}
    {props : Array Properties} {off : Nat} {y : Nat → Nat → Nat → Nat}
    (hC : C.Shape k n len_2k R.code.base.pkt_size ids ⟨om, k, R.code.base.pkt_size⟩ z) (hM : C.Mem R.code.base.pkt_size z H)
    (hv : ∀ l, C.Vec (S l) k len_2k g g2 ids) (hids : ValidIds k (k + m) ids)
    (hws : wm.size = k) (hwi : InjPtr wm) (hwd : Disj wm C.ptrs)
    (hwz : ∀ i, i < wm.size → gt wm i ≠ z) (hwo : Okb R.code.base.pkt_size H wm)
    (hps : props.size = k + m) (hpi : C.props_indices.size = k + m)
    (hpr : ∀ i, i < k → gt C.props_indices (gt ids i) = walk (gt props (gt ids i)) off)
    (hy : ∀ c i l, y c i l < 65537)
    (hw : ∀ i c, i < k → c < R.code.base.pkt_size →
      seenWord R.N (gt props (gt ids i)) (off + c) (el H (gt wm i) c) = NF4.word 32 (IsNf4.wide lanes simd) (y c i)) :
    ∃ pi H', R.decode C ⟨om, k, R.code.base.pkt_size⟩ props off ⟨wm, k, R.code.base.pkt_size⟩ H
        = .ok ({ C with props_indices := pi }, H') ∧ pi.size = k + m ∧
      (∀ i, i < k → gt pi (gt ids i) = walk (gt props (gt ids i)) (off + R.code.base.pkt_size)) ∧
      C.Mem R.code.base.pkt_size z H' ∧ Okb R.code.base.pkt_size H' wm ∧
      Only 0 (fun b => InMem C.ptrs b ∨ InMem wm b) H H' ∧
      ∀ i c, i < k → c < R.code.base.pkt_size → el H' (gt om i) c % 2 ^ (16 * lanes) = RsNf4.anyWord lanes g k ids (fun l j => y c j l) i := by
  have gd := G.good
  have hkd : R.code.base.n_data = k := gd.n_data
  have hle := gd.le
  have hpos := gd.H.build.pos
  have hk := gd.env.kpos
  have hkn := gd.env.kn
  have hltn : ∀ i, i < k → gt ids i < n := fun i hi => by have := hids.lt i hi; omega
  -- prepare
  obtain ⟨pi, H1, e1, s1, f1, o1, q1, w1⟩ := decode_prepare_any (R := R) (C := C) (props := props) (off := off)
    (N := k + m) (words := ⟨wm, k, R.code.base.pkt_size⟩) (H := H)
    (by rw [hkd, hC.idsEq]; exact hids) hps hpi (by rw [hkd, hC.idsEq]; exact hpr) hkd.symm (by rw [hkd]; exact hws) hwi hwo
  rw [hkd, hC.idsEq] at q1 w1
  simp only at f1 o1 w1
  have hsym : ∀ i, i < k → ∀ c, c < R.code.base.pkt_size → el H1 (gt wm i) c = NF4.word 32 (IsNf4.wide lanes simd) (y c i) := by
    intro i hi c hc
    rw [w1 i hi c hc, hw i c hi hc]
  have hwide := gd.H.le_wide
  obtain ⟨SW, hV, hφ, wops, wfft, wfft2⟩ := G.wide
  have hcoef : ∀ l a, (S l).Coef a → (SW l).Coef a := fun l a h =>
    ⟨(hV l a).mpr (((gd.V l a).mp h.V).up hwide), h.le, fun e => by rw [hφ, ← gd.φ]; exact h.one e, fun e => by rw [hφ, ← gd.φ]; exact h.neg e⟩
  have hpk : ∀ c i, Packed (IsNf4.wide lanes simd) (NF4.word 32 (IsNf4.wide lanes simd) (y c i)) ∧
      ∀ l, l < lanes → lane32 (NF4.word 32 (IsNf4.wide lanes simd) (y c i)) l = y c i l := fun c i => by
    have := word_packed (n := IsNf4.wide lanes simd) (f := y c i) (fun l _ => hy c i l)
    exact ⟨this.1, fun l hl => this.2 l (by omega)⟩
  have hM1 : C.Mem R.code.base.pkt_size z H1 := hM.frame f1 hwd hwz
  -- apply
  have hC' : ({ C with props_indices := pi } : CtxB).Shape k n len_2k R.code.base.pkt_size ids ⟨om, k, R.code.base.pkt_size⟩ z :=
    ⟨hC.len, hC.idsEq, hC.pn, hC.psize, hC.plen, hC.bk, hC.bnlen, hC.bnat, hC.bnz, hC.mn, hC.m2, hC.b2n, hC.b22, hC.out, hC.injP,
      hC.injM, hC.dPM, hC.zP, hC.zM⟩
  have hap : ∀ l, _ := fun l => FecB.decode_apply_spec (B := R.code) (S := SW l) false hk hkn gd.env.k2 (gd.env.fft l).root
    (gd.env.fft_2k l).root (gd.env.fft_2k l).nz (wfft l) (wfft2 l) G.ok2 (wops l) (C := { C with props_indices := pi }) (ids := ids)
    (output := ⟨om, k, R.code.base.pkt_size⟩) (words := ⟨wm, k, R.code.base.pkt_size⟩) (H := H1) (z := z) hC' ⟨hM1.okP, hM1.okM, hM1.zlt, hM1.zv⟩
    ⟨(hv l).invSize, fun i hi => ⟨hcoef l _ ((hv l).inv i hi).1, by rw [hφ, ← gd.φ]; exact ((hv l).inv i hi).2⟩, (hv l).ASize,
      fun j hj => ⟨hcoef l _ ((hv l).A j hj).1, by rw [hφ, ← gd.φ]; exact ((hv l).A j hj).2⟩⟩ hltn
    (fun i hi j hj he => hids.inj i j (by simpa using hi) (by simpa using hj) he) (by simp) rfl rfl hws hwd o1
    (fun i c hi hc => (hV l _).mpr (by rw [hsym i hi c hc]; exact (hpk c i).1))
  obtain ⟨H2, e2, f2, m2, _⟩ := hap ⟨0, hpos⟩
  change Frame C.ptrs H1 H2 at f2
  have hM2 : C.Mem R.code.base.pkt_size z H2 := ⟨m2.okP, m2.okM, m2.zlt, m2.zv⟩
  have hwo2 : Okb R.code.base.pkt_size H2 wm := o1.frame f2 hwd.symm
  have hom : om = C.buf_max_n_2k.mem.extract 0 k := by have := hC.out; simpa using congrArg Bufs.mem this
  have homS : SubPtr om C.ptrs := by
    rw [hom]
    exact (SubPtr.extract (by have := hC.mn; omega)).trans (SubPtr.right _ _)
  have homs : om.size = k := by rw [hom]; simp; have := hC.mn; omega
  have homi : InjPtr om := by rw [hom]; exact hC.injM.extract (by have := hC.mn; omega)
  have homo : Okb R.code.base.pkt_size H2 om := by
    rw [hom]; exact hM2.okM.sub (SubPtr.extract (by have := hC.mn; omega))
  have hxinj : Set.InjOn (fun i => g ^ gt ids i) (Finset.range k) := by
    intro i hi j hj he
    have hi' : i < k := by simpa using hi
    have hj' : j < k := by simpa using hj
    exact hids.inj i j hi' hj' ((gd.env.fft ⟨0, hpos⟩).root.pow_inj (hltn i hi') (hltn j hj') he)
  have key : ∀ i c, i < k → c < R.code.base.pkt_size → ∀ l : Fin lanes, Packed (IsNf4.wide lanes simd) (el H2 (gt om i) c) ∧
      (lane32 (el H2 (gt om i) c) l : ZMod 65537) = (MarkCode.interp g k ids (fun j => y c j l)).coeff i := by
    intro i c hi hc l
    obtain ⟨H2', e2', _, _, v2, c2⟩ := hap l
    rw [e2] at e2'
    obtain ⟨_, rfl⟩ := Prod.mk.inj (Except.ok.inj e2')
    refine ⟨(hV l _).mp (v2 i c hi hc), ?_⟩
    obtain ⟨d1, d2, _⟩ := MarkCode.interp_spec (g := g) hxinj (fun j => y c j l)
    rw [← hφ]
    exact c2 c hc _ d1 (fun i hi => by
      show (SW l).φ (el H1 (gt wm i) c) = _
      rw [hsym i hi c hc, hφ, (hpk c i).2 l l.2]
      exact (d2 i hi).symm) i hi
  -- unpack
  obtain ⟨H3, e3, f3, o3, g3⟩ := mapChunks_spec (R := R) (f := fun x => (R.N.unpack x).1) (count := k) (B := ⟨om, k, R.code.base.pkt_size⟩)
    (H := H2) le_rfl homs.ge homi homo
  simp only at f3 o3 g3
  refine ⟨pi, H3, ?_, s1, q1, ?_, hwo2.frame f3 (hwd.symm.sub homS (SubPtr.refl _)),
    ((Only.of_frame f1 (fun i hi _ => Or.inr ⟨i, hi, rfl⟩)).trans (Only.of_frame f2 (fun i hi _ => Or.inl ⟨i, hi, rfl⟩))).trans
      (Only.of_frame (f3.mono homS) (fun i hi _ => Or.inl ⟨i, hi, rfl⟩)), ?_⟩
  · unfold decode decode_apply
    rw [e1, ok_bind]
    simp only
    rw [e2, ok_bind]
    simp only
    rw [hkd, e3, ok_bind]
    rfl
  · refine ⟨hM2.okP.frame f3 ?_, ?_, by rw [f3.size]; exact hM2.zlt, ?_⟩
    · rw [hom]; exact (hC.dPM.symm.sub (SubPtr.extract (by have := hC.mn; omega)) (SubPtr.refl _))
    · intro i hi
      rw [f3.size]
      refine ⟨(hM2.okM i hi).1, ?_⟩
      by_cases hik : i < k
      · have := (o3 i (by omega)).2
        rw [hom, gt_extract (by omega) (by have := hC.mn; omega)] at this
        simpa using this
      · rw [f3.out _ (fun j hj he => ?_)]
        · exact (hM2.okM i hi).2
        · rw [hom, gt_extract (by omega) (by have := hC.mn; omega)] at he
          have := hC.injM (0 + j) i (by have := hC.mn; omega) hi he
          omega
    · rw [f3.out z (fun j hj he => ?_)]
      · exact hM2.zv
      · rw [hom, gt_extract (by omega) (by have := hC.mn; omega)] at he
        exact hC.zM (0 + j) (by have := hC.mn; omega) he
  · intro i c hi hc
    rw [g3 i hi c hc, gd.H.unpack_low (key i c hi hc ⟨0, hpos⟩).1]
    unfold RsNf4.anyWord
    refine word_congr (fun l hl => ?_)
    obtain ⟨r1, r2⟩ := key i c hi hc ⟨l, hl⟩
    have hlt := r1.lane l (by omega)
    rw [← r2, ZMod.val_natCast_of_lt hlt]
    split <;> omega

/-- the packed symbols of the word `v` at location `t` of the `j`-th selected fragment -/
def symOf (lanes : Nat) (props : Array Properties) (ids : Array Nat) (v j t : Nat) : Nat :=
  NF4.word 32 lanes (RsNf4.laneVal v (flagAt (gt props (gt ids j)) t))

/-- the packed code decodes packets with any contents -/
theorem aspec (G : R.Built b lanes simd k m S n len_2k g g2 okLen okB okB2) (props : Array Properties) :
    (R.fecV b).ASpecG props (symOf lanes props) (fun ids y i => RsNf4.anyWord lanes g k ids (fun l j => lane32 (y j) l) i)
      (fun a c => a % 2 ^ (16 * lanes) = c) 0 (fun _ _ => True) := by
  have gd := G.good
  have hkd : R.code.base.n_data = k := gd.n_data
  have hcl : R.code.base.code_len = k + m := gd.code_len
  have hno : R.code.base.n_outputs = k + m := gd.n_outputs
  have hsys : R.code.base.sys = false := gd.sys
  have hnn : R.code.base.n = n := gd.hn
  have hle := gd.le
  have hpos := gd.H.build.pos
  have hk := gd.env.kpos
  have hkn := gd.env.kn
  have hn16 := gd.n16
  haveI : Nonempty (Fin lanes) := ⟨⟨0, hpos⟩⟩
  have hpow : 256 ^ R.code.base.word_size = 2 ^ (16 * lanes) := by
    have : R.code.base.word_size = 2 * lanes := gd.wl
    rw [this, show (256 : Nat) = 2 ^ 8 by norm_num, ← pow_mul]; congr 1; ring
  constructor
  · intro a c h
    show a % 256 ^ R.code.base.word_size = c % 256 ^ R.code.base.word_size
    rw [hpow, ← h, Nat.mod_mod]
  · intro ids y y' i h
    change ∀ j, j < R.code.base.n_data → y j = y' j at h
    rw [hkd] at h
    unfold RsNf4.anyWord MarkCode.interp
    refine word_congr (fun l _ => ?_)
    rw [Lagrange.interpolate_eq_of_values_eq_on (fun j => ((lane32 (y j) l : Nat) : ZMod 65537)) (fun j => ((lane32 (y' j) l : Nat) : ZMod 65537))
      (fun j hj => by rw [h j (Finset.mem_range.mp hj)])]
  · intro C0 H ids wm om mem junk _ hids hps h1 h2 h3 h4 h5
    change ValidIds R.code.base.n_data (if R.code.base.sys then R.code.base.n_data + R.code.base.n_outputs else R.code.base.n_outputs) ids at hids
    change props.size = R.code.base.n_outputs at hps
    change wm.size = R.code.base.n_data at h1
    change om.size = R.code.base.n_data at h2
    rw [hsys, if_neg (by simp), hno, hkd] at hids
    rw [hkd] at h1 h2
    have hidsn : ValidIds k n ids := ⟨hids.size, hids.inj, fun i hi => by have := hids.lt i hi; omega⟩
    -- the points
    obtain ⟨vx, evx, svx, hvx⟩ := forN_inv (n := k) (s := fresh mem k) (f := fun i vx => do
        let j ← rd ids i
        wr vx i (R.N.exp R.code.base.r (R.N.replicate j)))
      (I := fun t (vx : Array Nat) => vx.size = k ∧ ∀ i, i < t → gt vx i = R.N.exp R.code.base.r (R.N.replicate (gt ids i)))
      ⟨by simp [fresh], by simp⟩ (by
        rintro t vx ht ⟨i1, i2⟩
        have := hids.size
        refine ⟨_, by rw [rd_gt (a := ids) (by omega), ok_bind, wr_ok (by omega)], by simp [i1], fun i hi => ?_⟩
        rw [gt_set (by omega)]
        by_cases he : i = t
        · subst he; rw [if_pos rfl]
        · rw [if_neg he]; exact i2 i (by omega))
    have hvx' : ∀ (l : Fin lanes) i, i < k → (S l).V (gt vx i) ∧ (S l).φ (gt vx i) = g ^ gt ids i := by
      intro l i hi
      have hlt := hidsn.lt i hi
      have he := Props.C15_exp gd.H ((gd.V l _).mp (gd.r l).1) (R.N.replicate (gt ids i))
      simp only at he
      rw [hvx i hi, gd.V, gd.φ]
      refine ⟨he.1, ?_⟩
      have hrep := gd.H.replicate_lane (a := gt ids i) (by omega) l.2
      simp only at hrep
      rw [he.2 l l.2, hrep, ← gd.φ, (gd.r l).2]
    obtain ⟨H', C, z, eC, ext, hC, hM, hv, hpi, hz', hpt⟩ := CtxB.mk'_spec gd.env G.same (ids := ids) (vx := vx) (props := props)
      mem junk hidsn svx hvx' (pkt := R.code.base.pkt_size) (output := ⟨om, k, R.code.base.pkt_size⟩) (H := H) rfl rfl h2 h3.right
      (h5.sub (SubPtr.right _ _))
    have hwlt : ∀ j, j < wm.size → gt wm j < H.size := fun j hj => by
      have := (h5 j (by rw [Array.size_append]; omega)).1
      rwa [gt_append, if_pos hj] at this
    have hwd : Disj wm C.ptrs := fun i j hi hj he => by
      rcases hpt j hj with ⟨t, ht, ht'⟩ | ⟨hh, _⟩
      · rw [ht'] at he
        exact h3.disj i t hi (by omega) he
      · have := hwlt i hi; omega
    have hwz : ∀ i, i < wm.size → gt wm i ≠ z := fun i hi he => by have := hwlt i hi; omega
    refine ⟨fun C' Hh t => ∃ pi, C' = { C with props_indices := pi } ∧ pi.size = k + m ∧
      (∀ i, i < k → gt pi (gt ids i) = walk (gt props (gt ids i)).sort t) ∧
      C.Mem R.code.base.pkt_size z Hh ∧ Okb R.code.base.pkt_size Hh wm, fun b => InMem C.ptrs b ∨ b = z,
      H', C, props.map Properties.sort, ?_, ?_, ext, ?_, ?_, ?_, ?_, ?_, ?_⟩
    · show R.init_context_dec ids props R.code.base.pkt_size ⟨om, R.code.base.n_data, R.code.base.pkt_size⟩ mem junk H = _
      unfold init_context_dec
      rw [hkd, evx, ok_bind, hnn]
      exact eC
    · refine ⟨C.props_indices, rfl, by rw [hpi]; simp; omega, ?_, hM, (h5.sub (SubPtr.left _ _)).ext ext⟩
      intro i hi
      rw [hpi, gt_replicate (by have := hids.lt i hi; omega)]
      rfl
    · rintro b (⟨i, hi, rfl⟩ | rfl)
      · refine ⟨Nat.zero_le _, (hM.ptrs_lt i hi), fun hb => ?_⟩
        rcases hpt i hi with ⟨j, hj, he⟩ | ⟨hh, _⟩
        · exact ⟨j, by omega, he.symm⟩
        · omega
      · exact ⟨by omega, hM.zlt, fun hb => by omega⟩
    · rintro b ⟨i, hi, rfl⟩
      have hom : om = C.buf_max_n_2k.mem.extract 0 k := by have := hC.out; simpa using congrArg Bufs.mem this
      have homS : SubPtr om C.ptrs := by
        rw [hom]
        exact (SubPtr.extract (by have := hC.mn; omega)).trans (SubPtr.right _ _)
      obtain ⟨j, hj, he⟩ := homS i hi
      exact Or.inl ⟨j, hj, he.symm⟩
    · rintro C' Ha Hb t ⟨pi, rfl, a1, a2, a3, a5⟩ hs _ ho hw
      exact ⟨pi, rfl, a1, a2, a3.stable hs (fun i hi => ho _ (Or.inl ⟨i, hi, rfl⟩)) (ho _ (Or.inr rfl)), hw⟩
    · rintro C' Hh t ⟨pi, rfl, _, _, a3, a5⟩
      refine ⟨trivial, a5, ?_⟩
      have hom : om = C.buf_max_n_2k.mem.extract 0 k := by have := hC.out; simpa using congrArg Bufs.mem this
      rw [hom]
      exact a3.okM.sub (SubPtr.extract (by have := hC.mn; omega))
    · rintro C' Ha Hb t ⟨pi, rfl, a1, a2, a3, a5⟩ hf ho
      exact ⟨pi, rfl, a1, a2, a3.frame hf hwd hwz, ho⟩
    · rintro C' Hh t ⟨pi, rfl, a1, a2, a3, a5⟩ hwords
      change ∀ i c, i < R.code.base.n_data → c < R.code.base.pkt_size → el Hh (gt wm i) c < 256 ^ R.code.base.word_size at hwords
      rw [hkd] at hwords
      have hC' : ({ C with props_indices := pi } : CtxB).Shape k n len_2k R.code.base.pkt_size ids ⟨om, k, R.code.base.pkt_size⟩ z :=
        ⟨hC.len, hC.idsEq, hC.pn, hC.psize, hC.plen, hC.bk, hC.bnlen, hC.bnat, hC.bnz, hC.mn, hC.m2, hC.b2n, hC.b22, hC.out, hC.injP,
          hC.injM, hC.dPM, hC.zP, hC.zM⟩
      have hsort : ∀ i, i < k → gt (props.map Properties.sort) (gt ids i) = (gt props (gt ids i)).sort := fun i hi =>
        gt_map (by have := hids.lt i hi; omega)
      obtain ⟨pi', Hn, en, b1, b2, b3, b5, b7, b6⟩ := decode_any G (C := { C with props_indices := pi }) (z := z) (ids := ids)
        (wm := wm) (om := om) (props := props.map Properties.sort) (off := t)
        (y := fun c i l => RsNf4.laneVal (el Hh (gt wm i) c) (flagAt (gt props (gt ids i)) (t + c)) l) hC'
        ⟨a3.okP, a3.okM, a3.zlt, a3.zv⟩ (fun l => ⟨(hv l).invSize, (hv l).inv, (hv l).ASize, (hv l).A⟩) hids h1 h3.left hwd hwz
        a5 (by simp; omega) a1 (fun i hi => by rw [hsort i hi]; exact a2 i hi) (fun _ _ _ => RsNf4.laneVal_lt _ _ _) (fun i c hi hc => by
          rw [hsort i hi]
          exact seenWord_eq gd.H _ (by rw [← hpow]; exact hwords i c hi hc))
      refine ⟨{ C with props_indices := pi' }, Hn, ?_, ⟨pi', rfl, b1, fun i hi => by rw [b2 i hi, hsort i hi]; rfl,
        ⟨b3.okP, b3.okM, b3.zlt, b3.zv⟩, b5⟩, ⟨b7.1, fun b hb hn => b7.2 b hb (fun h => hn (h.imp_left Or.inl))⟩, ?_⟩
      · show R.decode _ ⟨om, R.code.base.n_data, R.code.base.pkt_size⟩ _ t ⟨wm, R.code.base.n_data, R.code.base.pkt_size⟩ Hh = _
        rw [hkd]; exact en
      · intro i c hi hc
        change i < R.code.base.n_data at hi
        change c < R.code.base.pkt_size at hc
        rw [b6 i c (by omega) hc]
        unfold symOf RsNf4.anyWord
        refine word_congr (fun l hl => ?_)
        have : ∀ j, RsNf4.laneVal (el Hh (gt wm j) c) (flagAt (gt props (gt ids j)) (t + c)) l
            = lane32 (NF4.word 32 lanes (RsNf4.laneVal (el Hh (gt wm j) c) (flagAt (gt props (gt ids j)) (t + c)))) l :=
          fun j => ((word_packed (n := lanes) (f := RsNf4.laneVal _ _) (fun l _ => RsNf4.laneVal_lt _ _ _)).2 l hl).symm
        simp only [← this]

/-- the words that decoding appends -/
theorem lanesDecoded (G : R.Built b lanes simd k m S n len_2k g g2 okLen okB okB2) {w T : Nat} (hw : w = 2 * lanes)
    {fr : Array (Option (List Nat))} {props : Array Properties} (hv : ValidIds k (k + m) (picked k fr).toArray) :
    LanesDecoded g w k T fr props (fun i => flat w (fun t => RsNf4.anyWord lanes g k (picked k fr).toArray (fun l j => lane32
      (symOf lanes props (picked k fr).toArray (wordAt w ((gt fr (gt (picked k fr).toArray j)).getD []) t) j t) l) i) T) := by
  have gd := G.good
  have hplen : (picked k fr).length = k := by simpa using hv.size
  have hmem : ∀ i, i < k → gt (picked k fr).toArray i ∈ picked k fr := fun i hi =>
    (Gf2nRec.getD_mem_iff hplen).mp ⟨i, hi, rfl⟩
  set ids := (picked k fr).toArray with hids
  have hxinj : Set.InjOn (fun i => g ^ gt ids i) (Finset.range k) := by
    intro i hi j hj he
    have hi' : i < k := by simpa using hi
    have hj' : j < k := by simpa using hj
    have := gd.le
    exact hv.inj i j hi' hj' ((gd.env.fft ⟨0, gd.H.build.pos⟩).root.pow_inj (by have := hv.lt i hi'; omega) (by have := hv.lt j hj'; omega) he)
  intro t l ht hl
  set y : Nat → Nat → Nat := fun l j => lane32 (symOf lanes props ids (wordAt w ((gt fr (gt ids j)).getD []) t) j t) l with hy
  have hsym : ∀ i, laneAt w ((gt fr (gt ids i)).getD []) (gt props (gt ids i)) t l = y l i := by
    intro i
    have : y l i = RsNf4.laneVal (wordAt w ((gt fr (gt ids i)).getD []) t) (flagAt (gt props (gt ids i)) t) l :=
      (word_packed (f := RsNf4.laneVal _ _) (fun l _ => RsNf4.laneVal_lt _ _ _)).2 l (by omega)
    rw [this]
    unfold laneAt
    rw [Fec.wordAt_eq]
    rfl
  obtain ⟨d1, d2, d3⟩ := MarkCode.interp_spec (g := g) hxinj (y l)
  refine ⟨MarkCode.interp g k ids (y l), d1, fun j hj => ?_, fun Q hQ hq => d3 Q hQ fun i hi => ?_, fun i hi => ?_⟩
  · obtain ⟨i, hi, rfl⟩ := (Gf2nRec.getD_mem_iff hplen).mpr hj
    refine (d2 i hi).trans (congrArg Nat.cast (hsym i).symm)
  · exact (hq _ (hmem i hi)).trans (congrArg Nat.cast (hsym i))
  · have hlt : RsNf4.anyWord lanes g k ids y i < 256 ^ w := by
      have := NF4.word_lt (s := 16) (n := lanes) (f := fun l => ((MarkCode.interp g k ids (y l)).coeff i).val % 65536)
        (fun l _ => Nat.mod_lt _ (by norm_num))
      refine lt_of_lt_of_le this (le_of_eq ?_)
      rw [show (256 : Nat) = 2 ^ 8 by norm_num, ← pow_mul, hw]; congr 1; ring
    rw [Fec.wordAt_eq, MarkCode.wordAt_flat_mod ht, Nat.mod_eq_of_lt hlt]
    exact NF4.word_lane (s := 16) (f := fun l => ((MarkCode.interp g k ids (y l)).coeff i).val % 65536)
      (fun l _ => Nat.mod_lt _ (by norm_num)) (by omega)

/-- decoding of packets -/
theorem decodesPackets (G : R.Built b lanes simd k m S n len_2k g g2 okLen okB okB2) (hpkt : 0 < R.code.base.pkt_size) :
    DecodesPackets (R.fecV b) g R.code.base.word_size k m := by
  have gd := G.good
  have hV := vspec (b := b) G
  have hk : (R.fecV b).base.n_data = k := gd.n_data
  have hout : (R.fecV b).base.n_outputs = k + m := gd.n_outputs
  have hsys : (R.fecV b).base.sys = false := gd.sys
  set w := R.code.base.word_size with hwd
  have hw : (R.fecV b).base.word_size = w := rfl
  have hwl : w = 2 * lanes := gd.wl
  have hkp : 0 < k := gd.env.kpos
  have hdl : ∀ a, (R.fecV b).base.dataList a = [] := fun a => by
    unfold FecBase.dataList; rw [hsys]; rfl
  have hby : ∀ (f : Nat → Nat) (T : Nat), (flat w f T).length = T * w ∧ ∀ x ∈ flat w f T, x < 256 := fun f T =>
    ⟨flat_length _ _ _, fun x hx => by
      obtain ⟨t, _, hh⟩ := List.mem_flatMap.mp hx
      exact leBytes_lt _ _ x hh⟩
  constructor
  · intro T datas pars outs props mem junk H h1 h2 h3 h4
    obtain ⟨⟨v, o, H'⟩, e, _, q2⟩ := FecV.decode_streams_vertical_any hV (aspec (b := b) G props) hpkt (C0 := default) (H := H) trivial
      (T := T) (datas := datas) (pars := pars) (outs := outs) mem junk (by rw [hsys]; intro h; cases h) (by rw [hout]; exact h1)
      (by rw [hout]; exact h2) (by rw [hk]; exact h3)
      (by
        rw [hsys, hw]
        intro i s hi
        have hi' : gt pars i = some s := hi
        refine h4 i s ?_ hi'
        by_contra hge
        have h0 : gt pars i = none := by
          rw [gt, Array.getD_eq_getD_getElem?, Array.getElem?_eq_none (by omega)]; rfl
        rw [h0] at hi'; cases hi')
    have hpl : (present (pars.map Option.isSome) (k + m)).length = avail pars := present_eq_avail pars h1
    rw [hdl, hk, hout, hpl, hw, hsys, if_neg (by simp; omega)] at q2
    refine ⟨v, o, H', e, ?_⟩
    simp only [List.length_nil, Nat.zero_add] at q2
    by_cases h : avail pars < k
    · rw [if_pos h] at q2 ⊢; cases q2; exact ⟨rfl, rfl⟩
    · rw [if_neg h] at q2 ⊢
      obtain ⟨q3, q4, q5, q6⟩ := q2
      exact ⟨q3, q4, _, lanesDecoded G hwl q5, fun i hi => ⟨(hby _ _).1, (hby _ _).2, q6 i hi⟩⟩
  · intro T datas pars props missing wanted bytes mem junk H hb h1 h2 h3 h4 hw1 h5 hw2
    have hfg : ∀ j, j < missing.size → gt (blockFrags w T pars missing) j = if gt missing j then none
        else (gt pars j).map (fun d => d.toList.take (T * w)) := by
      intro j hj
      unfold blockFrags
      rw [gt_ofFn hj]
    have hcase : ∀ j, j < k + m → gt missing j = false → ∃ d : Array Nat, gt pars j = some d ∧ T * w ≤ d.size ∧ (∀ x ∈ d.toList, x < 256) ∧
        gt (blockFrags w T pars missing) j = some (d.toList.take (T * w)) := by
      intro j hj hm
      obtain ⟨d, a1, a2, a3⟩ := h5 j hj hm
      refine ⟨d, a1, a2, a3, ?_⟩
      rw [hfg j (by omega), hm, if_neg (by simp), a1]; rfl
    have hnm : ∀ j s, gt (blockFrags w T pars missing) j = some s → j < k + m ∧ gt missing j = false := by
      intro j s hj
      have hlt : j < missing.size := by
        by_contra hge
        have h0 : gt (blockFrags w T pars missing) j = none := by
          have hz : (blockFrags w T pars missing).size ≤ j := by simpa [blockFrags] using hge
          simp [gt, hz]; rfl
        rw [h0] at hj; cases hj
      refine ⟨by omega, ?_⟩
      rw [hfg j hlt] at hj
      by_contra hm
      rw [if_pos (by simpa using hm)] at hj; cases hj
    obtain ⟨⟨v, o, H'⟩, e, _, q2⟩ := FecV.decode_blocks_vertical_any hV (aspec (b := b) G props) hpkt (C0 := default) (H := H) trivial
      (T := T) (bytes := bytes) (datas := datas) (pars := pars) (missing := missing) (wanted := wanted) mem junk (by rw [hw]; exact hb)
      (by rw [hk]; exact h1) (by rw [hout]; exact h2) (by rw [hout]; exact h3) (by rw [hsys, hout, h4]; rfl) (by rw [hk]; exact hw1)
      (fr := blockFrags w T pars missing) (by simp [blockFrags])
      (by
        intro j hj
        cases hm : gt missing j with
        | false =>
          obtain ⟨d, _, _, _, h4⟩ := hcase j (by omega) hm
          rw [h4]; rfl
        | true => rw [hfg j hj, hm]; rfl)
      (by rw [hsys]; intro h; cases h)
      (by
        rw [hsys, hw, hout]
        intro f s hf hff
        obtain ⟨d, a1, a2, _, a4⟩ := hcase f hf (hnm _ s hff).2
        have hff' : gt (blockFrags w T pars missing) f = some s := hff
        rw [a4] at hff'
        exact ⟨d, a1, a2, Option.some.inj hff'⟩)
      (by
        intro j s hj
        obtain ⟨b1, b2⟩ := hnm j s hj
        obtain ⟨d, _, _, a3, a4⟩ := hcase j b1 b2
        rw [a4] at hj
        cases hj
        exact fun x hx => a3 x (List.mem_of_mem_take hx))
      (by rw [hk, hw]; exact hw2) rfl rfl
    have htot := present_not_count h4
    rw [hk, hw, hout, hsys] at q2
    simp only [Bool.false_eq_true, if_false] at q2
    rw [hdl, htot, if_neg (by simp; omega)] at q2
    refine ⟨v, o, H', e, ?_⟩
    simp only [List.length_nil, Nat.zero_add] at q2
    by_cases h : missing.toList.count false < k
    · rw [if_pos h] at q2 ⊢; cases q2; exact ⟨rfl, rfl⟩
    · rw [if_neg h] at q2 ⊢
      obtain ⟨q3, q4, q5, q6⟩ := q2
      exact ⟨q3, q4, _, lanesDecoded G hwl q5, fun i hi => ⟨(hby _ _).1, (hby _ _).2, q6 i hi⟩⟩

end RsNf4Obj
end Quad
