import Verif.Lemmas.SimdFft3

/-!
The vectorised transforms on buffers meet the specification of the scalar ones.
-/

namespace Quad
open Finset Simd

namespace Simd
variable {R w : Nat} (hR : RegSize R) (hw : Lane w) {F : GF} (hF : F.ModP (P w)) {len : Nat}

theorem spair_unique {p len r a b : Nat} (f g : Heap → Res Heap) (hf : Radix2.SPair p len (fun c => c < len) r a b f)
    (hg : Radix2.SPair p len (fun c => c < len) r a b g) {H : Heap} (ha : a < H.size) (hb : b < H.size)
    (hsa : (gt H a).size = len) (hsb : (gt H b).size = len) (hc : Radix2.Clean p len H a) : f H = g H := by
  obtain ⟨H1, e1, s1, z1, o1, c1⟩ := hf H ha hb hsa hsb
  obtain ⟨H2, e2, s2, z2, o2, c2⟩ := hg H ha hb hsa hsb
  have : H1 = H2 := heap_ext (by omega) (fun b => by rw [z1, z2]) (fun b' c => ?_)
  · rw [e1, e2, this]
  by_cases h : c < len ∧ b' = b
  · rw [h.2, c1 hc c h.1, c2 hc c h.1]
  · rw [o1 b' c h, o2 b' c h]

include hR hw hF in
theorem mul_coef_eq {r a b : Nat} (hr : r < P w - 1) {H : Heap} (ha : a < H.size) (hb : b < H.size)
    (hsa : (gt H a).size = len) (hsb : (gt H b).size = len) (hc : Radix2.Clean (P w) len H a) :
    mul_coef_to_buf R w F.card r a b len H = BufOps.mul_coef_to_buf F r a b len H := by
  by_cases hab : a = b
  · subst hab
    refine mul_coef_to_buf_eq hR hw hF (bl := fun x => x = a) (by omega) (by omega) rfl rfl ?_
    rintro x rfl
    exact ⟨ha, hsa, hc⟩
  have hp := P_pos hw
  have hf := hw.fit
  have hr0 := (ratio_mul hR hw).2
  have hle : len / ratio R w * ratio R w ≤ len := Nat.div_mul_le_self _ _
  refine spair_unique (p := P w) (r := r) _ _ ?_ ?_ ha hb hsa hsb hc
  · have hvec : Radix2.SPair (P w) len (fun c => c < len / ratio R w * ratio R w) r a b (fun H => forN (len / ratio R w) H (fun i H => do
        let x ← loadReg R w H a i
        storeReg R w H b i (mod_mul w (set_one w r) x))) := by
      refine Radix2.SPair.loop (S := fun j c => j * ratio R w ≤ c ∧ c < (j + 1) * ratio R w) hab (fun c => ?_) (fun i j c h1 h2 => ?_)
        (fun j hj H ha hb hsa hsb => ?_)
      · constructor
        · intro h
          refine ⟨c / ratio R w, (Nat.div_lt_iff_lt_mul hr0).mpr h, Nat.div_mul_le_self _ _, ?_⟩
          have := Nat.lt_mul_div_succ c hr0
          rwa [Nat.mul_comm] at this
        · rintro ⟨j, h1, h2, h3⟩
          have : (j + 1) * ratio R w ≤ len / ratio R w * ratio R w := Nat.mul_le_mul_right _ h1
          omega
      · by_contra hne
        rcases Nat.lt_or_gt_of_ne hne with h | h
        · have : (i + 1) * ratio R w ≤ j * ratio R w := Nat.mul_le_mul_right _ h
          omega
        · have : (j + 1) * ratio R w ≤ i * ratio R w := Nat.mul_le_mul_right _ h
          omega
      · have hj' := Radix2.turn_le hj
        have ex : (j + 1) * ratio R w = j * ratio R w + ratio R w := by ring
        obtain ⟨x, e⟩ : ∃ x, loadReg R w H a j = .ok x := ⟨_, by unfold loadReg; rw [rd_gt ha, ok_bind, if_pos (by omega)]⟩
        obtain ⟨H', e', s, z, g⟩ := storeReg_el (R := R) (w := w) (H := H) (d := b)
          (x := mod_mul w (set_one w r) x) (j := j) hb (by omega)
        refine ⟨H', by rw [e, ok_bind, e'], s, z, fun b' c h => ?_, fun hcl c hc => ?_⟩
        · rw [g, if_neg (fun h' => h ⟨h'.2, h'.1⟩)]
        · obtain ⟨x', e2, hx⟩ := loadReg_el hR hw (H := H) (s := a) (j := j) ha (by omega) (fun c hc => hcl c (by omega))
          rw [e] at e2; cases e2
          rw [g, if_pos ⟨rfl, hc⟩]
          have hl := hx (c - j * ratio R w) (by omega)
          rw [Nat.add_sub_cancel' hc.1] at hl
          have hla : ∀ t, lane w (set_one w r) t = r := fun t => lane_set_one hw (by omega)
          rw [lane_mod_mul hw (by rw [hla]; omega) (by rw [hl]; exact hcl c (by omega)) (by rw [hla]; omega), hla, hl]
    have htail : Radix2.SPair (P w) len (fun c => len / ratio R w * ratio R w ≤ c ∧ c < len) r a b (fun H =>
        forStep (len / ratio R w * ratio R w) len 1 H (fun i H => do
          let x ← Heap.rdEl H a i
          Heap.wrEl H b i (r * x % F.card % 256 ^ w))) := by
      unfold forStep
      have hst : stride (len / ratio R w * ratio R w) len 1 = len - len / ratio R w * ratio R w := by unfold stride; omega
      rw [hst]
      refine Radix2.SPair.loop (S := fun j c => c = len / ratio R w * ratio R w + j * 1) hab (fun c => ?_) (fun i j c h1 h2 => by omega)
        (fun j hj H ha hb hsa hsb => ?_)
      · constructor
        · rintro ⟨h1, h2⟩; exact ⟨c - len / ratio R w * ratio R w, by omega, by omega⟩
        · rintro ⟨j, h1, h2⟩; omega
      · obtain ⟨H', e', s, z, g⟩ := wrEl_el (H := H) (d := b) (j := len / ratio R w * ratio R w + j * 1)
          (x := r * el H a (len / ratio R w * ratio R w + j * 1) % F.card % 256 ^ w) hb (by omega)
        refine ⟨H', ?_, s, z, fun b' c h => ?_, fun hcl c hc => ?_⟩
        · dsimp only
          rw [Heap.rdEl_ok (j := len / ratio R w * ratio R w + j * 1) ha (by omega), ok_bind]; exact e'
        · rw [g, if_neg (fun h' => h ⟨h'.2, h'.1⟩)]
        · rw [g, if_pos ⟨rfl, hc⟩, hF.card, hc]
          exact Nat.mod_eq_of_lt (by have := Nat.mod_lt (r * el H a (len / ratio R w * ratio R w + j * 1)) hp; omega)
    intro H ha hb hsa hsb
    obtain ⟨H1, e1, s1, z1, o1, c1⟩ := hvec H ha hb hsa hsb
    obtain ⟨H2, e2, s2, z2, o2, c2⟩ := htail H1 (by omega) (by omega) (by rw [z1]; exact hsa) (by rw [z1]; exact hsb)
    have ea : ∀ c, el H1 a c = el H a c := fun c => o1 a c (fun h => hab h.2)
    refine ⟨H2, ?_, by omega, fun x => (z2 x).trans (z1 x), fun b' c h => ?_, fun hcl c hc => ?_⟩
    · unfold mul_coef_to_buf
      simp only [unrolled_eq (show 0 < 4 by omega)]
      dsimp only at e1 e2
      rw [e1, ok_bind, e2]
    · rw [o2 b' c (fun h' => h ⟨h'.1.2, h'.2⟩), o1 b' c (fun h' => h ⟨by omega, h'.2⟩)]
    · by_cases hc' : c < len / ratio R w * ratio R w
      · rw [o2 b c (fun h => by omega)]
        exact c1 hcl c hc'
      · rw [c2 (fun c hc => by rw [ea]; exact hcl c hc) c ⟨by omega, hc⟩, ea]
  · unfold BufOps.mul_coef_to_buf
    refine Radix2.SPair.loop (S := fun j c => c = j) hab (fun c => by simp) (fun i j c h1 h2 => by omega)
      (fun j hj H ha hb hsa hsb => ?_)
    obtain ⟨H', e', s, z, g⟩ := wrEl_el (H := H) (d := b) (j := j) (x := F.mul r (el H a j)) hb (by omega)
    refine ⟨H', ?_, s, z, fun b' c h => ?_, fun hcl c hc => ?_⟩
    · rw [Heap.rdEl_ok (j := j) ha (by omega), ok_bind]; exact e'
    · rw [g, if_neg (fun h' => h ⟨h'.2, h'.1⟩)]
    · rw [g, if_pos ⟨rfl, hc⟩, hF.mul _ _ (by omega) (hcl j hj), hc]

include hR hw hF in
theorem mulCoef_eq {r a b : Nat} {H : Heap} (ha : a < H.size) (hb : b < H.size)
    (hsa : (gt H a).size = len) (hsb : (gt H b).size = len) (hc : Radix2.Clean (P w) len H a) :
    mulCoef R w F r a b len H = BufOps.mulCoef F r a b len H := by
  unfold mulCoef BufOps.mulCoef
  split
  · next h => exact mul_coef_eq hR hw hF (by rw [hF.cardM1] at h; omega) ha hb hsa hsb hc
  split
  · rfl
  split
  · rfl
  split
  · obtain ⟨H1, e1, o1, g1⟩ := Heap.cpy_spec hb ha hsb hsa
    rw [e1, ok_bind, ok_bind]
    refine neg_eq hR hw hF (bl := fun x => x = b) rfl ?_
    rintro x rfl
    exact ⟨by rw [o1.1]; exact hb, by rw [g1]; exact hsa, fun c hc' => by unfold el; rw [g1]; exact hc c hc'⟩
  · rfl

end Simd

section
variable {K : Type} [Field K] {R : Radix2} {S : R.F.Sim K} {L : Nat} (hG : R.Good S L) {pkt : Nat}
  {rb w : Nat} (hR : RegSize rb) (hw : Lane w) (hF : R.F.ModP (P w)) (hV : ∀ c, S.V c → c < P w)
  {mem inp : Array Nat} {H : Heap}

include hG hR hw hF hV in
theorem Radix2.fftV_eq (h1 : mem.size = 2 ^ L) (h2 : 0 < inp.size ∧ ∃ d, d ≤ L ∧ (if inp.size > R.data_len then inp.size else R.data_len) = 2 ^ d)
    (hinj : InjPtr mem) (hd : Disj mem inp) (hm : Okb pkt H mem) (hi : Okb pkt H inp)
    (hv : ∀ j c, j < inp.size → c < pkt → S.V (el H (gt inp j) c)) :
    R.fftV rb w pkt mem inp H = R.fftH pkt mem inp H := by
  obtain ⟨hpos, d, hdL, hK⟩ := h2
  obtain ⟨g, a', eg, hg, es, hsz, hA⟩ := scatter_spec hG (pktSim S pkt) hdL (out := mem.map (gt H)) (input := inp.map (gt H))
    (by simpa using h1) (by simpa using hK) (pkts_of_okb hi hv)
  obtain ⟨H1, e1, v1, f1⟩ := Ref.scatter hd hinj R (by simp) (fun i hi' => by
    rw [Array.size_map] at hi'; rw [gt_map hi']; exact (hi i hi').2) H _ hm.view hi.view a' es
  have good : Quad.Good (P w) pkt (blk mem) H1 := by
    rintro b ⟨i, hi', rfl⟩
    have := (hA i (by omega)).1
    refine ⟨v1.lt i hi', by rw [v1.blk i hi']; exact v1.sz i hi', fun c hc => ?_⟩
    unfold el
    rw [v1.blk i hi']
    exact hV _ (this.2 c hc)
  unfold Radix2.fftV Radix2.fftH
  cases hc : cassert (decide (inp.size > 0)) with
  | error x => rfl
  | ok _ =>
    cases hc2 : cassert (decide (R.data_len > 0)) with
    | error x => rfl
    | ok _ =>
      simp only [ok_bind]
      rw [Array.size_map] at eg
      dsimp only at e1
      rw [eg, ok_bind, ok_bind, e1, ok_bind, ok_bind, hg]
      exact Radix2.fftTail_eq hR hw hF hinj (by rw [h1, hG.n]) (by rw [hG.WSize, hG.n])
        (fun i hi => hV _ (hG.W i (by rw [← hG.n]; exact hi)).1) hG.n good

include hG hR hw hF hV in
theorem Radix2.fftInvBodyV_eq (hL : L < 31) (h1 : mem.size = 2 ^ L) (h2 : 0 < inp.size) (h3 : inp.size ≤ 2 ^ L)
    (hinj : InjPtr mem) (hd : Disj mem inp) (hm : Okb pkt H mem) (hi : Okb pkt H inp)
    (hv : ∀ j c, j < inp.size → c < pkt → S.V (el H (gt inp j) c)) :
    R.fftInvBodyV rb w pkt mem inp H = R.fftInvBodyH pkt mem inp H := by
  have hsz : mem.size = R.n := by rw [h1, hG.n]
  have hWs : R.inv_W.size = R.n := by rw [hG.invWSize, hG.n]
  have hW : ∀ i, i < R.n → gt R.inv_W i < P w := fun i hi => hV _ (hG.invW i (by rw [← hG.n]; exact hi)).1
  have hp := P_pos hw
  obtain ⟨a1, ea, sa, ga⟩ := copyIn_spec (out := mem.map (gt H)) (input := inp.map (gt H)) (by simp; omega)
  obtain ⟨H1, k1, v1, f1⟩ := Ref.copyIn hd hinj (by simp) (fun i hi' => by
    rw [Array.size_map] at hi'; rw [gt_map hi']; exact (hi i hi').2) H _ hm.view hi.view a1 ea
  dsimp only at k1
  have cl1 : ∀ i, i < inp.size → Radix2.Clean (P w) pkt H1 (gt mem i) := by
    intro i hi' c hc
    unfold el
    rw [v1.blk i (by omega), ga, if_pos (by simpa using hi'), gt_map hi']
    exact hV _ (hv i c hi' hc)
  unfold Radix2.fftInvBodyV Radix2.fftInvBodyH
  rw [k1, ok_bind, ok_bind]
  by_cases hl : inp.size < R.n
  · rw [if_pos hl, if_pos hl]
    rw [hG.n] at hl
    have hL31 : 2 ^ L ≤ 2 ^ 30 := Nat.pow_le_pow_right (by omega) (by omega)
    obtain ⟨e, ep, hp1, hp2⟩ := Arith.ceil2_spec (b := 32) h2 (by norm_num; omega)
    have hmin : ∀ s, inp.size ≤ 2 ^ s → e ≤ s := fun s hs => (Nat.pow_le_pow_iff_right (by omega)).mp (hp2 s hs)
    have heL := hmin L h3
    have hple : 2 ^ e ≤ 2 ^ L := Nat.pow_le_pow_right (by omega) heL
    rw [ep, ok_bind, ok_bind]
    obtain ⟨a3, e3, s3, g3⟩ := forStep_inv (a := inp.size) (b := 2 ^ e) (st := 1) (s := a1)
      (f := fun i out => wr out i (pktCell R.F pkt).zero)
      (I := fun k (c : Array (Array Nat)) => c.size = a1.size ∧
        ∀ i, gt c i = if inp.size ≤ i ∧ i < inp.size + k then (pktCell R.F pkt).zero else gt a1 i)
      (by omega) ⟨rfl, fun i => by rw [if_neg (by omega)]⟩
      (by
        rintro k c hk ⟨t1, t2⟩
        have hk' : inp.size + k * 1 = inp.size + k := by ring
        rw [hk'] at hk ⊢
        have hlt : inp.size + k < c.size := by rw [t1, sa]; simp; omega
        refine ⟨_, wr_ok hlt, by simp [t1], ?_⟩
        intro i
        rw [gt_set hlt, t2]
        by_cases hi : i = inp.size + k
        · rw [if_pos hi, if_pos (by omega)]
        · rw [if_neg hi]
          by_cases hc : inp.size ≤ i ∧ i < inp.size + k
          · rw [if_pos hc, if_pos (by omega)]
          · rw [if_neg hc, if_neg (by omega)])
    have hst : inp.size + stride inp.size (2 ^ e) 1 = 2 ^ e := by
      unfold stride; simp; omega
    rw [hst] at g3
    obtain ⟨H2, k2, v2, f2⟩ := Ref.forStep hd (fun i => Ref.put hinj (i := i) (f := fun d H => Heap.fill H d pkt 0)
      (show (pktCell R.F pkt).zero.size = pkt by simp [pktCell])
      (fun H d h1 h2 _ => by simpa [pktCell] using Heap.fill_spec h1 h2)) H1 a1 v1 (hi.view.frame f1 hd) a3 e3
    dsimp only at k2
    rw [k2, ok_bind, ok_bind]
    obtain ⟨s, rfl⟩ : ∃ s, L = s + 1 := ⟨L - 1, by
      have : L ≠ 0 := by rintro rfl; rw [pow_zero] at hl; omega
      omega⟩
    have A : Radix2.Agree (P w) pkt mem (fun x => x % 2 ^ (s + 1) < 2 ^ e) H2 H2 := by
      refine ⟨rfl, fun _ => rfl, fun _ _ _ => rfl, v2.okb, fun _ _ _ _ => rfl, fun i hi' hC c hc => ?_⟩
      rw [Nat.mod_eq_of_lt (by omega)] at hC
      unfold el
      rw [v2.blk i hi', g3]
      by_cases hii : i < inp.size
      · rw [if_neg (by omega), ← v1.blk i hi']
        exact cl1 i hii c hc
      · rw [if_pos (by omega)]
        simp only [pktCell]
        rw [gt_replicate hc]; exact hp
    have hhalf : R.n / 2 = 2 ^ s := by rw [hG.n, pow_succ]; omega
    rw [hhalf]
    obtain ⟨E, Kp⟩ := Radix2.gsSimpleStagesV_eq (pkt := pkt) hR hw hF hinj hsz hWs hW hG.n h2 hp1 hmin (R.n + 1) s H2 H2 le_rfl heL A
    rw [E]
    cases hx : R.gsSimpleStagesH pkt mem inp.size (R.n + 1) (2 ^ s) H2 with
    | error x => rfl
    | ok x =>
      obtain ⟨m', H3⟩ := x
      obtain ⟨gd, hm'⟩ := Kp m' H3 hx
      simp only [ok_bind]
      rcases hm' with rfl | ⟨s', hs', rfl⟩
      · simp [Radix2.gsStagesV, Radix2.gsStagesH]
      · exact (Radix2.gsStagesV_same hR hw hF hinj hsz hWs hW hG.n _ s' hs' H3 gd).1
  · rw [if_neg hl, if_neg hl]
    have hn : inp.size = R.n := by rw [hG.n] at hl ⊢; omega
    have gd : Quad.Good (P w) pkt (blk mem) H1 := by
      rintro b ⟨i, hi', rfl⟩
      exact ⟨v1.lt i hi', by rw [v1.blk i hi']; exact v1.sz i hi', cl1 i (by omega)⟩
    show R.gsStagesV rb w pkt mem (R.n + 1) (R.n / 2) H1 = R.gsStagesH pkt mem (R.n + 1) (R.n / 2) H1
    rcases Nat.eq_zero_or_pos L with rfl | hL0
    · rw [hG.n]
      simp [Radix2.gsStagesV, Radix2.gsStagesH]
    · have hhalf : R.n / 2 = 2 ^ (L - 1) := by
        rw [hG.n]; obtain ⟨s, rfl⟩ : ∃ s, L = s + 1 := ⟨L - 1, by omega⟩
        rw [pow_succ]; simp
      rw [hhalf]
      exact (Radix2.gsStagesV_same hR hw hF hinj hsz hWs hW hG.n _ (L - 1) (by omega) H1 gd).1

include hG hR hw hF hV in
theorem Radix2.fftInvV_eq (hL : L < 31) (h1 : mem.size = 2 ^ L) (h2 : 0 < inp.size) (h3 : inp.size ≤ 2 ^ L)
    (hinj : InjPtr mem) (hd : Disj mem inp) (hm : Okb pkt H mem) (hi : Okb pkt H inp)
    (hv : ∀ j c, j < inp.size → c < pkt → S.V (el H (gt inp j) c)) :
    R.fftInvV rb w pkt mem inp H = R.fftInvH pkt mem inp H := by
  obtain ⟨m1, k1, s1, g1⟩ := bit_rev_permute_spec hG.n hG.revSize hG.rev mem h1
  have key : ∀ i, i < m1.size → ∃ j, j < mem.size ∧ gt m1 i = gt mem j := fun i hi =>
    ⟨bitrev L i, by rw [h1]; exact bitrev_lt L i, g1 i (by omega)⟩
  have hinj1 : InjPtr m1 := by
    intro i j hi hj he
    rw [g1 i (by omega), g1 j (by omega)] at he
    have := hinj _ _ (by rw [h1]; exact bitrev_lt L i) (by rw [h1]; exact bitrev_lt L j) he
    rw [← bitrev_bitrev L i (by omega), this, bitrev_bitrev L j (by omega)]
  have hd1 : Disj m1 inp := by
    intro i j hi hj
    obtain ⟨t, ht, he⟩ := key i hi
    rw [he]; exact hd t j ht hj
  have hm1 : Okb pkt H m1 := by
    intro i hi
    obtain ⟨t, ht, he⟩ := key i hi
    rw [he]; exact hm t ht
  unfold Radix2.fftInvV Radix2.fftInvH
  rw [k1, ok_bind, ok_bind, Radix2.fftInvBodyV_eq hG hR hw hF hV hL (by omega) h2 h3 hinj1 hd1 hm1 hi hv]

include hG hR hw hF hV in
theorem Radix2.ifftV_eq (hL : L < 31) (hdl : 0 < R.data_len) (hc : S.Coef R.inv_n) (hi' : S.φ R.inv_n = ((2 ^ L : Nat) : K)⁻¹)
    (h1 : mem.size = 2 ^ L) (h2 : 0 < inp.size) (h3 : inp.size ≤ 2 ^ L)
    (h4 : InjPtr mem) (h5 : Disj mem inp) (h6 : Okb pkt H mem) (h7 : Okb pkt H inp)
    (h8 : ∀ j c, j < inp.size → c < pkt → S.V (el H (gt inp j) c)) :
    R.ifftV rb w pkt mem inp H = R.ifftH pkt mem inp H := by
  have sp := Radix2.fth_spec (pkt := pkt) hG hL hdl hc hi'
  have e := Radix2.fftInvV_eq hG hR hw hF hV hL h1 h2 h3 h4 h5 h6 h7 h8
  obtain ⟨H1, e1, f1, o1, g1⟩ := sp.fft_inv h1 h2 h3 h4 h5 h6 h7 h8
  have e1' : R.fftInvH pkt mem inp H = .ok (mem, H1) := e1
  unfold Radix2.ifftV Radix2.ifftH
  rw [e, e1', ok_bind, ok_bind]
  dsimp only
  congr 1
  -- the loop of scalings
  have : ∀ n, n ≤ mem.size → forN n H1 (fun i H => do
        let d ← rd mem i
        Simd.mulCoef rb w R.F R.inv_n d d pkt H) = forN n H1 (fun i H => do
        let d ← rd mem i
        BufOps.mulCoef R.F R.inv_n d d pkt H) ∧
      ∀ H2, forN n H1 (fun i H => do
        let d ← rd mem i
        BufOps.mulCoef R.F R.inv_n d d pkt H) = .ok H2 → H2.size = H1.size ∧ ∀ i, n ≤ i → i < mem.size → gt H2 (gt mem i) = gt H1 (gt mem i) := by
    intro n
    induction n with
    | zero => intro _; exact ⟨rfl, fun H2 e => by cases e; exact ⟨rfl, fun _ _ _ => rfl⟩⟩
    | succ n ih =>
      intro hn
      obtain ⟨i1, i2⟩ := ih (by omega)
      simp only [forN]
      rw [i1]
      cases hx : forN n H1 (fun i H => do
        let d ← rd mem i
        BufOps.mulCoef R.F R.inv_n d d pkt H) with
      | error x => exact ⟨rfl, fun H2 e => by simp at e⟩
      | ok H2 =>
        obtain ⟨z, q⟩ := i2 H2 hx
        simp only [ok_bind]
        rw [rd_gt (show n < mem.size by omega), ok_bind, ok_bind]
        have eb := q n le_rfl (by omega)
        have ob := o1 n (by omega)
        refine ⟨Simd.mulCoef_eq hR hw hF (by omega) (by omega) (by rw [eb]; exact ob.2) (by rw [eb]; exact ob.2) (fun c hc => ?_), fun H3 e3 => ?_⟩
        · unfold el; rw [eb]; exact hV _ (g1 n (by omega) c hc).1
        · obtain ⟨H4, e4, o4, _⟩ := mulCoef_spec (S := S) (H := H2) (d := gt mem n) (s := gt mem n) (pkt := pkt) hc
            (by omega) (by omega) (by rw [eb]; exact ob.2) (by rw [eb]; exact ob.2) (fun c hc => by
              unfold el; rw [eb]; exact (g1 n (by omega) c hc).1)
          rw [e4] at e3; cases e3
          refine ⟨by rw [o4.1, z], fun i hi1 hi2 => ?_⟩
          rw [o4.2 _ (fun he => by have := h4 _ _ hi2 (by omega) he; omega), q i (by omega) hi2]
  exact (this mem.size le_rfl).1

include hG hR hw hF hV in
/-- a vectorised radix-2 object on buffers -/
theorem Radix2.fthV_spec (hL : L < 31) (hdl : 0 < R.data_len) (hc : S.Coef R.inv_n) (hi' : S.φ R.inv_n = ((2 ^ L : Nat) : K)⁻¹) :
    (R.fthV rb w pkt).Spec S pkt (2 ^ L) (S.φ R.w) (fun m => 0 < m ∧ ∃ d, d ≤ L ∧ (if m > R.data_len then m else R.data_len) = 2 ^ d) := by
  have sp := Radix2.fth_spec (pkt := pkt) hG hL hdl hc hi'
  refine ⟨?_, ?_, ?_⟩
  · intro H mem inp h1 h2 h4 h5 h6 h7 h8
    have e := Radix2.fftV_eq hG hR hw hF hV h1 h2 h4 h5 h6 h7 h8
    have s := sp.fft h1 h2 h4 h5 h6 h7 h8
    show ∃ H', R.fftV rb w pkt mem inp H = _ ∧ _
    rw [e]; exact s
  · intro H mem inp h1 h2 h3 h4 h5 h6 h7 h8
    have e := Radix2.fftInvV_eq hG hR hw hF hV hL h1 h2 h3 h4 h5 h6 h7 h8
    have s := sp.fft_inv h1 h2 h3 h4 h5 h6 h7 h8
    show ∃ H', R.fftInvV rb w pkt mem inp H = _ ∧ _
    rw [e]; exact s
  · intro H mem inp h1 h2 h3 h4 h5 h6 h7 h8
    have s := sp.ifft h1 h2 h3 h4 h5 h6 h7 h8
    have this := Radix2.ifftV_eq hG hR hw hF hV hL hdl hc hi' h1 h2 h3 h4 h5 h6 h7 h8
    show ∃ H', R.ifftV rb w pkt mem inp H = _ ∧ _
    rw [this]; exact s

end
end Quad
