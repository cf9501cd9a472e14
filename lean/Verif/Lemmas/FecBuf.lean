import Verif.Lemmas.BufOps

/-!
Packet-level decoding over any field simulation and any transform on buffers
that computes the discrete Fourier transform of each column.
-/

namespace Quad
open Finset Polynomial

/-- the numbers computed by `decode_apply` on one column -/
theorem decode_math {K : Type} [Field K] {k n len_2k : Nat} {w w2 : K} {ids : Array Nat} (hk : 0 < k) (hkn : k ≤ n)
    (hk2 : 2 * k ≤ len_2k) (root : IsPrimitiveRoot w n) (hlt : ∀ i, i < k → gt ids i < n)
    (hinj : Set.InjOn (fun i => gt ids i) (range k)) (root2 : IsPrimitiveRoot w2 len_2k) (nz2 : (len_2k : K) ≠ 0)
    {y inv Q Z : Nat → K}
    (hinv : ∀ i, i < k → inv i = ((derivative (locator k (fun i => w ^ gt ids i))).eval (w ^ gt ids i) * w ^ gt ids i)⁻¹)
    (hQ : ∀ j, j < k → Q j = ∑ i ∈ range k, y i * inv i * (w ^ gt ids i)⁻¹ ^ j)
    (hZ : ∀ j, j < len_2k → Z j = (locator k (fun i => w ^ gt ids i)).eval (w2 ^ j) * ∑ m ∈ range k, w2 ^ (j * m) * Q m)
    {P : K[X]} (hP : P.degree < k) (hval : ∀ i, i < k → y i = P.eval (w ^ gt ids i)) {i : Nat} (hi : i < k) :
    -((len_2k : K)⁻¹ * ∑ j ∈ range len_2k, w2⁻¹ ^ (i * j) * Z j) = P.coeff i := by
  have hw0 : w ≠ 0 := root.ne_zero (by omega)
  have hxinj : Set.InjOn (fun i => w ^ gt ids i) (range k) := by
    intro i hi j hj he
    exact hinj hi hj (root.pow_inj (hlt i (by simpa using hi)) (hlt j (by simpa using hj)) he)
  set c : Nat → K := fun i => y i * inv i with hc
  have hser : ∀ j, ∑ m ∈ range k, w2 ^ (j * m) * Q m = (series k (fun i => w ^ gt ids i) c).eval (w2 ^ j) := by
    intro j
    unfold series
    rw [eval_finsetSum]
    refine sum_congr rfl (fun m hm => ?_)
    simp only [eval_mul, eval_C, eval_pow, eval_X]
    rw [hQ m (mem_range.mp hm), ← pow_mul, mul_comm]
  have hprod : ∀ j ∈ range len_2k, w2⁻¹ ^ (i * j) * Z j
      = w2⁻¹ ^ (i * j) * (series k (fun i => w ^ gt ids i) c * locator k (fun i => w ^ gt ids i)).eval (w2 ^ j) := by
    intro j hj
    rw [hZ j (mem_range.mp hj), hser j, eval_mul, mul_comm (eval _ (locator _ _))]
  rw [sum_congr rfl hprod, dft_eval_inv (f := series k (fun i => w ^ gt ids i) c * locator k (fun i => w ^ gt ids i)) _ root2
      (by omega), ← mul_assoc, inv_mul_cancel₀ nz2, one_mul,
    mul_comm (series _ _ _), locator_mul_series_coeff hxinj (fun i _ => pow_ne_zero _ hw0) hP _ hi, neg_neg]
  · intro i hi
    simp only [hc]
    rw [hval i hi, hinv i hi]
  · refine lt_of_le_of_lt natDegree_mul_le ?_
    have h1 := series_natDegree_lt hk (fun i => w ^ gt ids i) c
    have h2 := locator_natDegree k (fun i => w ^ gt ids i)
    omega

/-- the buffers of a context: `P` and `M` below are the pointers of `buf1_2k` and
`buf_max_n_2k`, `z` is the block of zeros -/
structure CtxB.Shape (C : CtxB) (k n len_2k pkt : Nat) (ids : Array Nat) (output : Bufs) (z : Nat) : Prop where
  len : C.len_2k = len_2k
  idsEq : C.fragments_ids = ids
  pn : C.buf1_2k.n = len_2k
  psize : C.buf1_2k.size = pkt
  plen : C.buf1_2k.mem.size = len_2k
  bk : C.buf1_k = ⟨C.buf1_2k.mem.extract 0 k, k, pkt⟩
  bnlen : C.buf1_n.mem.size = n
  bnat : ∀ i, i < k → gt C.buf1_n.mem (gt ids i) = gt C.buf1_2k.mem i
  bnz : ∀ j, j < n → (∀ i, i < k → gt ids i ≠ j) → gt C.buf1_n.mem j = z
  mn : n ≤ C.buf_max_n_2k.mem.size
  m2 : len_2k ≤ C.buf_max_n_2k.mem.size
  b2n : C.buf2_n.mem = C.buf_max_n_2k.mem.extract 0 n
  b22 : C.buf2_2k.mem = C.buf_max_n_2k.mem.extract 0 len_2k
  out : output = ⟨C.buf_max_n_2k.mem.extract 0 k, k, pkt⟩
  injP : InjPtr C.buf1_2k.mem
  injM : InjPtr C.buf_max_n_2k.mem
  dPM : Disj C.buf1_2k.mem C.buf_max_n_2k.mem
  zP : ∀ i, i < C.buf1_2k.mem.size → gt C.buf1_2k.mem i ≠ z
  zM : ∀ i, i < C.buf_max_n_2k.mem.size → gt C.buf_max_n_2k.mem i ≠ z

/-- the pointers a context writes to -/
def CtxB.ptrs (C : CtxB) : Array Nat := C.buf1_2k.mem ++ C.buf_max_n_2k.mem

/-- the blocks of the context are there and the block of zeros is zero -/
structure CtxB.Mem (C : CtxB) (pkt z : Nat) (H : Heap) : Prop where
  okP : Okb pkt H C.buf1_2k.mem
  okM : Okb pkt H C.buf_max_n_2k.mem
  zlt : z < H.size
  zv : gt H z = Array.replicate pkt 0

/-- the vectors of the context -/
structure CtxB.Vec {F : GF} {K : Type} [Field K] (S : F.Sim K) (C : CtxB) (k len_2k : Nat) (w w2 : K) (ids : Array Nat) : Prop where
  invSize : C.inv_A_i.size = k
  inv : ∀ i, i < k → S.Coef (gt C.inv_A_i i) ∧ S.φ (gt C.inv_A_i i)
    = ((derivative (locator k (fun i => w ^ gt ids i))).eval (w ^ gt ids i) * w ^ gt ids i)⁻¹
  ASize : C.A_fft_2k.size = len_2k
  A : ∀ j, j < len_2k → S.Coef (gt C.A_fft_2k j) ∧
    S.φ (gt C.A_fft_2k j) = (locator k (fun i => w ^ gt ids i)).eval (w2 ^ j)

theorem CtxB.Mem.frame {C : CtxB} {pkt z : Nat} {H H' : Heap} {m : Array Nat} (h : C.Mem pkt z H) (f : Frame m H H')
    (d : Disj m C.ptrs) (hz : ∀ i, i < m.size → gt m i ≠ z) : C.Mem pkt z H' :=
  ⟨h.okP.frame f (d.sub (SubPtr.refl _) (SubPtr.left _ _)), h.okM.frame f (d.sub (SubPtr.refl _) (SubPtr.right _ _)),
    by rw [f.size]; exact h.zlt, by rw [f.out z hz]; exact h.zv⟩

theorem InjPtr.disj_ne {a : Array Nat} (h : InjPtr a) {i j : Nat} (hi : i < a.size) (hj : j < a.size) (hij : i ≠ j) :
    gt a i ≠ gt a j := fun e => hij (h i j hi hj e)

section
variable {K : Type} [Field K] {k n len_2k pkt z : Nat} {w w2 : K} {okLen okLen2 : Nat → Prop}

/-- `decode_apply` on buffers finds, in each column, the coefficients of the
polynomial of degree below `k` that takes the given values -/
theorem FecB.decode_apply_spec {B : FecB} {S : B.base.F.Sim K} (short : Bool) (hk : 0 < k) (hkn : k < n) (hk2 : 2 * k ≤ len_2k)
    (root : IsPrimitiveRoot w n) (root2 : IsPrimitiveRoot w2 len_2k) (nz2 : (len_2k : K) ≠ 0)
    (hfft : B.fft.Spec S pkt n w okLen) (hfft2 : B.fft_2k.Spec S pkt len_2k w2 okLen2) (hok2 : okLen2 k) (hops : B.build.Ops S)
    {C : CtxB} {ids : Array Nat} {output words : Bufs} {H : Heap} (hC : C.Shape k n len_2k pkt ids output z)
    (hM : C.Mem pkt z H) (hv : C.Vec S k len_2k w w2 ids)
    (hlt : ∀ i, i < k → gt ids i < n) (hinj : Set.InjOn (fun i => gt ids i) (range k))
    (hshort : short = true → ∀ i, i < k → gt ids i = i)
    (hwn : words.n = k) (hws : words.size = pkt) (hwm : words.mem.size = k) (hwd : Disj words.mem C.ptrs)
    (hwo : Okb pkt H words.mem) (hwV : ∀ i c, i < k → c < pkt → S.V (el H (gt words.mem i) c)) :
    ∃ H', B.decode_apply short C output words H = .ok (C, H') ∧ Frame C.ptrs H H' ∧ C.Mem pkt z H' ∧
      (∀ i c, i < k → c < pkt → S.V (el H' (gt output.mem i) c)) ∧
      ∀ c, c < pkt → ∀ P : K[X], P.degree < k → (∀ i, i < k → S.φ (el H (gt words.mem i) c) = P.eval (w ^ gt ids i)) →
        ∀ i, i < k → S.φ (el H' (gt output.mem i) c) = P.coeff i := by
  set P := C.buf1_2k.mem with hPd
  set M := C.buf_max_n_2k.mem with hMd
  have hPs : P.size = len_2k := hC.plen
  have hMn : n ≤ M.size := hC.mn
  have hM2 : len_2k ≤ M.size := hC.m2
  have hPk : SubPtr (P.extract 0 k) P := SubPtr.extract (by omega)
  have hPkg : ∀ i, i < k → gt (P.extract 0 k) i = gt P i := fun i hi => by
    rw [gt_extract (by omega) (by omega)]; simp
  have hPks : (P.extract 0 k).size = k := by simp; omega
  have subP : SubPtr P C.ptrs := SubPtr.left _ _
  have subM : SubPtr M C.ptrs := SubPtr.right _ _
  have hMng : ∀ i, i < n → gt (M.extract 0 n) i = gt M i := fun i hi => by
    rw [gt_extract (by omega) (by omega)]; simp
  have hM2g : ∀ i, i < len_2k → gt (M.extract 0 len_2k) i = gt M i := fun i hi => by
    rw [gt_extract (by omega) (by omega)]; simp
  have hMkg : ∀ i, i < k → gt (M.extract 0 k) i = gt M i := fun i hi => by
    rw [gt_extract (by omega) (by omega)]; simp
  have hMns : (M.extract 0 n).size = n := by simp; omega
  have hM2s : (M.extract 0 len_2k).size = len_2k := by simp; omega
  have hMks : (M.extract 0 k).size = k := by simp; omega
  have sMn : SubPtr (M.extract 0 n) M := SubPtr.extract (by omega)
  have sM2 : SubPtr (M.extract 0 len_2k) M := SubPtr.extract (by omega)
  have sMk : SubPtr (M.extract 0 k) M := SubPtr.extract (by omega)
  have hout : output.mem = M.extract 0 k := by rw [hC.out]
  have hbk : C.buf1_k.mem = P.extract 0 k := by rw [hC.bk]
  -- buf1_k = inv_A_i * words
  obtain ⟨H1, e1, f1, o1, g1, _⟩ := hops.mulv (u := C.inv_A_i) (src := words) (dest := C.buf1_k) (H := H)
    (pkt := pkt) (by rw [hv.invSize, hwn]) (by rw [hv.invSize, hwm]) (by rw [hv.invSize, hbk, hPks]) hws
    (by rw [hbk]; exact hC.injP.extract (by rw [hC.plen]; omega))
    (fun i j hi hj => by
      rw [hv.invSize] at hi
      rw [hbk, hPkg j (by omega)]
      have : gt C.ptrs j = gt P j := by
        unfold CtxB.ptrs; rw [gt_append, if_pos (by rw [← hPd]; omega)]
      rw [← this]
      exact hwd i j (by omega) (by unfold CtxB.ptrs; rw [Array.size_append, ← hPd]; omega))
    (fun i hi => (hv.inv i (by rw [← hv.invSize]; exact hi)).1) hwo (by rw [hbk]; exact hM.okP.sub hPk)
    (fun i c hi hc => hwV i c (by rw [← hv.invSize]; exact hi) hc)
  rw [hv.invSize] at g1
  have f1P : Frame P H H1 := f1.mono (by rw [hbk]; exact hPk)
  have okP1 : Okb pkt H1 P := by
    intro i hi
    rw [f1.size]
    refine ⟨(hM.okP i hi).1, ?_⟩
    by_cases h : i < k
    · have := (o1 i (by rw [hbk]; omega)).2
      rwa [hbk, hPkg i h] at this
    · rw [f1.out _ (fun j hj => ?_)]
      · exact (hM.okP i hi).2
      · rw [hbk, hPks] at hj
        rw [hbk, hPkg j hj]
        exact hC.injP.disj_ne (by rw [← hPd]; omega) hi (by omega)
  have okM1 : Okb pkt H1 M := hM.okM.frame f1P hC.dPM
  have zv1 : gt H1 z = Array.replicate pkt 0 := by rw [f1P.out z hC.zP]; exact hM.zv
  have zlt1 : z < H1.size := by rw [f1.size]; exact hM.zlt
  have g1' : ∀ i, i < k → ∀ c, c < pkt → S.V (el H1 (gt P i) c) ∧
      S.φ (el H1 (gt P i) c) = S.φ (gt C.inv_A_i i) * S.φ (el H (gt words.mem i) c) := by
    intro i hi c hc
    have := g1 i hi c hc
    rwa [hbk, hPkg i hi] at this
  -- buf2_n = fft_inv
  have hzc : ∀ c, c < pkt → el H1 z c = 0 := fun c hc => by unfold el; rw [zv1, gt_replicate hc]
  have hnotP : ∀ j, j < n → (∃ i, i < k ∧ gt ids i = j ∧ gt C.buf1_n.mem j = gt P i) ∨
      ((∀ i, i < k → gt ids i ≠ j) ∧ gt C.buf1_n.mem j = z) := by
    intro j hj
    by_cases h : ∃ i, i < k ∧ gt ids i = j
    · obtain ⟨i, hi, e⟩ := h
      exact .inl ⟨i, hi, e, by rw [← e]; exact hC.bnat i hi⟩
    · have h' : ∀ i, i < k → gt ids i ≠ j := fun i hi e => h ⟨i, hi, e⟩
      exact .inr ⟨h', hC.bnz j hj h'⟩
  have Q : ∃ H2, B.fft.fft_inv C.buf2_n.mem (if short then C.buf1_k.mem else C.buf1_n.mem) H1 = .ok (C.buf2_n.mem, H2) ∧
      Frame M H1 H2 ∧ Okb pkt H2 M ∧ ∀ i, i < n → ∀ c, c < pkt → S.V (el H2 (gt M i) c) ∧
        S.φ (el H2 (gt M i) c) = ∑ t ∈ range k, S.φ (el H (gt words.mem t) c) * S.φ (gt C.inv_A_i t) * (w ^ gt ids t)⁻¹ ^ i := by
    have fin : ∀ inp : Array Nat, 0 < inp.size → inp.size ≤ n → Disj M inp → Okb pkt H1 inp →
        (∀ j c, j < inp.size → c < pkt → S.V (el H1 (gt inp j) c)) →
        (∀ i, i < n → ∀ c, c < pkt → ∑ j ∈ range inp.size, w⁻¹ ^ (i * j) * S.φ (el H1 (gt inp j) c)
          = ∑ t ∈ range k, S.φ (el H (gt words.mem t) c) * S.φ (gt C.inv_A_i t) * (w ^ gt ids t)⁻¹ ^ i) →
        ∃ H2, B.fft.fft_inv C.buf2_n.mem inp H1 = .ok (C.buf2_n.mem, H2) ∧
        Frame M H1 H2 ∧ Okb pkt H2 M ∧ ∀ i, i < n → ∀ c, c < pkt → S.V (el H2 (gt M i) c) ∧
        S.φ (el H2 (gt M i) c) = ∑ t ∈ range k, S.φ (el H (gt words.mem t) c) * S.φ (gt C.inv_A_i t) * (w ^ gt ids t)⁻¹ ^ i := by
      intro inp h1 h2 h3 h4 h5 h6
      rw [hC.b2n, ← hMd]
      obtain ⟨H2, e, f, o, g⟩ := hfft.fft_inv (mem := M.extract 0 n) hMns h1 h2 (hC.injM.extract hMn)
        (h3.sub sMn (SubPtr.refl _)) (okM1.sub sMn) h4 h5
      refine ⟨H2, e, f.mono sMn, ?_, ?_⟩
      · intro i hi
        rw [f.size]
        refine ⟨(okM1 i hi).1, ?_⟩
        by_cases hn : i < n
        · have := (o i (by omega)).2
          rwa [hMng i hn] at this
        · rw [f.out _ (fun j hj => ?_)]
          · exact (okM1 i hi).2
          · rw [hMns] at hj
            rw [hMng j hj]
            exact hC.injM.disj_ne (by rw [← hMd]; omega) hi (by omega)
      · intro i hi c hc
        have := g i hi c hc
        rw [hMng i hi, h6 i hi c hc] at this
        exact this
    cases short with
    | true =>
      have hid := hshort rfl
      rw [if_pos rfl, hbk]
      refine fin _ (by omega) (by omega) (hC.dPM.symm.sub (SubPtr.refl _) hPk) (okP1.sub hPk) ?_ ?_
      · intro j c hj hc
        rw [hPks] at hj
        rw [hPkg j hj]; exact (g1' j hj c hc).1
      · intro i hi c hc
        rw [hPks]
        refine sum_congr rfl (fun t ht => ?_)
        have ht' := mem_range.mp ht
        rw [hPkg t ht', (g1' t ht' c hc).2, hid t ht', ← inv_pow, ← pow_mul, mul_comm i]
        ring
    | false =>
      rw [if_neg (by simp)]
      refine fin _ (by rw [hC.bnlen]; omega) (by rw [hC.bnlen]) ?_ ?_ ?_ ?_
      · intro i j hi hj
        rw [hC.bnlen] at hj
        rcases hnotP j hj with ⟨t, ht, _, e⟩ | ⟨_, e⟩
        · rw [e]; exact fun h => hC.dPM t i (by rw [← hPd]; omega) hi h.symm
        · rw [e]; exact hC.zM i hi
      · intro j hj
        rw [hC.bnlen] at hj
        rcases hnotP j hj with ⟨t, ht, _, e⟩ | ⟨_, e⟩
        · rw [e]; exact okP1 t (by omega)
        · rw [e, zv1]; exact ⟨zlt1, by simp⟩
      · intro j c hj hc
        rw [hC.bnlen] at hj
        rcases hnotP j hj with ⟨t, ht, _, e⟩ | ⟨_, e⟩
        · rw [e]; exact (g1' t ht c hc).1
        · rw [e, hzc c hc]; exact S.zero.1
      · intro i hi c hc
        rw [hC.bnlen, sum_support (z := fun i => gt ids i) hinj hlt]
        · refine sum_congr rfl (fun t ht => ?_)
          have ht' := mem_range.mp ht
          rw [hC.bnat t ht', (g1' t ht' c hc).2, ← inv_pow, ← pow_mul, mul_comm i]
          ring
        · intro j hj hne
          rw [hC.bnz j hj hne, hzc c hc, S.zero.2, mul_zero]
  obtain ⟨H2, e2, f2, okM2, g2⟩ := Q
  have okP2 : Okb pkt H2 P := okP1.frame f2 hC.dPM.symm
  -- buf1_2k = fft_2k of output
  obtain ⟨H3, e3, f3, okP3, g3⟩ := hfft2.fft (H := H2) (mem := P) (inp := output.mem) hPs (by rw [hout, hMks]; exact hok2) hC.injP
    (by rw [hout]; exact hC.dPM.sub (SubPtr.refl _) sMk) okP2 (by rw [hout]; exact okM2.sub sMk) (fun j c hj hc => by
      rw [hout, hMks] at hj
      rw [hout, hMkg j hj]
      exact (g2 j (by omega) c hc).1)
  have okM3 : Okb pkt H3 M := okM2.frame f3 hC.dPM
  -- times A_fft_2k
  obtain ⟨H4, e4, f4, okP4, g4, _⟩ := hops.mulv (u := C.A_fft_2k) (src := C.buf1_2k) (dest := C.buf1_2k) (H := H3)
    (pkt := pkt) (by rw [hv.ASize, hC.pn]) (by rw [hv.ASize, hC.plen]) (by rw [hv.ASize, hC.plen]) hC.psize hC.injP
    (fun i j hi hj => by
      rw [hv.ASize] at hi
      exact hC.injP.disj_ne (by rw [← hPd]; omega) (by rw [← hPd]; omega) (by omega))
    (fun i hi => (hv.A i (by rw [← hv.ASize]; exact hi)).1) okP3 okP3
    (fun i c hi hc => (g3 i (by rw [← hv.ASize]; exact hi) c hc).1)
  rw [hv.ASize] at g4
  have okM4 : Okb pkt H4 M := okM3.frame f4 hC.dPM
  -- ifft
  obtain ⟨H5, e5, f5, okM5', g5⟩ := hfft2.ifft (H := H4) (mem := M.extract 0 len_2k) (inp := P) hM2s (by omega) (by omega)
    (hC.injM.extract hM2) (hC.dPM.symm.sub sM2 (SubPtr.refl _)) (okM4.sub sM2) okP4 (fun j c hj hc => (g4 j (by omega) c hc).1)
  have f5M : Frame M H4 H5 := f5.mono sM2
  have okM5 : Okb pkt H5 M := by
    intro i hi
    rw [f5.size]
    refine ⟨(okM4 i hi).1, ?_⟩
    by_cases hn : i < len_2k
    · have := (okM5' i (by omega)).2
      rwa [hM2g i hn] at this
    · rw [f5.out _ (fun j hj => ?_)]
      · exact (okM4 i hi).2
      · rw [hM2s] at hj
        rw [hM2g j hj]
        exact hC.injM.disj_ne (by rw [← hMd]; omega) hi (by omega)
  have okP5 : Okb pkt H5 P := okP4.frame f5M hC.dPM.symm
  -- neg
  obtain ⟨H6, e6, f6, okO6, g6⟩ := hops.negv (B := output) (H := H5) (pkt := pkt) (by rw [hC.out]; simp; rw [← hMd]; omega)
    (by rw [hC.out]) (by rw [hout]; exact hC.injM.extract (by rw [← hMd]; omega)) (by rw [hout]; exact okM5.sub sMk) (fun i c hi hc => by
      rw [hout, hMks] at hi
      rw [hout, hMkg i hi]
      have := (g5 i (by omega) c hc).1
      rwa [hM2g i (by omega)] at this)
  have f6M : Frame M H5 H6 := f6.mono (by rw [hout]; exact sMk)
  have okM6 : Okb pkt H6 M := by
    intro i hi
    rw [f6.size]
    refine ⟨(okM5 i hi).1, ?_⟩
    by_cases hn : i < k
    · have := (okO6 i (by rw [hout]; omega)).2
      rwa [hout, hMkg i hn] at this
    · rw [f6.out _ (fun j hj => ?_)]
      · exact (okM5 i hi).2
      · rw [hout, hMks] at hj
        rw [hout, hMkg j hj]
        exact hC.injM.disj_ne (by rw [← hMd]; omega) hi (by omega)
  have okP6 : Okb pkt H6 P := okP5.frame f6M hC.dPM.symm
  have fall : Frame C.ptrs H H6 :=
    ((((((f1P.mono subP).trans (f2.mono subM)).trans (f3.mono subP)).trans (f4.mono subP)).trans (f5M.mono subM)).trans (f6M.mono subM))
  refine ⟨H6, ?_, fall, ⟨okP6, okM6, by rw [fall.size]; exact hM.zlt, ?_⟩, ?_, ?_⟩
  · unfold FecB.decode_apply
    rw [e1, ok_bind, e2, ok_bind]
    simp only
    rw [e3, ok_bind, e4, ok_bind, hC.b22, ← hMd, e5, ok_bind]
    simp only
    rw [e6, ok_bind, hMd, ← hC.b22]
    rfl
  · rw [fall.out z]
    · exact hM.zv
    · intro i hi
      unfold CtxB.ptrs at hi ⊢
      rw [gt_append]
      rw [Array.size_append] at hi
      split
      · exact hC.zP i (by assumption)
      · exact hC.zM _ (by omega)
  · intro i c hi hc
    exact (g6 i (by rw [hout]; omega) c hc).1
  · intro c hc Po hPo hval i hi
    have h6 := (g6 i (by rw [hout]; omega) c hc).2
    rw [h6, hout, hMkg i hi]
    have h5 := (g5 i (by omega) c hc).2
    rw [hM2g i (by omega), hPs] at h5
    rw [h5]
    refine decode_math (Q := fun j => S.φ (el H2 (gt M j) c)) hk (by omega) hk2 root hlt hinj root2 nz2 (fun i hi => (hv.inv i hi).2)
      (fun j hj => (g2 j (by omega) c hc).2) (fun j hj => ?_) hPo hval hi
    rw [(g4 j hj c hc).2, (hv.A j hj).2, (g3 j hj c hc).2, hout, hMks]
    congr 1
    refine sum_congr rfl (fun m hm => ?_)
    rw [hMkg m (mem_range.mp hm)]

end
end Quad
