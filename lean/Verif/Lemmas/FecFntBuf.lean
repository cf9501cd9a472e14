import Verif.Lemmas.FecBlock
import Verif.Lemmas.FecFnt

/-!
The FNT code on packets meets `FecV.VSpec`, in both modes.
-/

namespace Quad
open Finset Polynomial

/-- only the representation matters to a transform -/
theorem FTH.Spec.congr {F F' : GF} {K : Type} [Field K] {S : F.Sim K} {S' : F'.Sim K} {T : FTH} {pkt N : Nat} {w : K}
    {okLen : Nat → Prop} (hV : ∀ c, S.V c ↔ S'.V c) (hφ : ∀ c, S.φ c = S'.φ c) (h : T.Spec S pkt N w okLen) :
    T.Spec S' pkt N w okLen := by
  obtain ⟨h1, h2, h3⟩ := h
  simp only [hV, hφ] at h1 h2 h3
  exact ⟨h1, h2, h3⟩

namespace RsFnt
variable {p : Nat} [Fact p.Prime]

theorem FftOver.spec {L dl pkt : Nat} {g : ZMod p} {R : Radix2} (h : FftOver p L dl g R) (hL : L < 31) (hdl : 0 < dl)
    {F : GF} (S : F.Sim (ZMod p)) (hV : ∀ c, S.V c ↔ c < p) (hφ : ∀ c, S.φ c = (c : ZMod p)) :
    (R.fth pkt).Spec S pkt (2 ^ L) g (fun m => 0 < m ∧ ∃ d, d ≤ L ∧ (if m > dl then m else dl) = 2 ^ d) := by
  obtain ⟨S', h1, h2, h3, h4, h5, h6, h7, h8, _⟩ := h
  have := Radix2.fth_spec h4 (pkt := pkt) hL (by rw [h5]; exact hdl) (h3.coef ((h1 _).mpr h6)) (by rw [h2, h7])
  rw [h2, h8, h5] at this
  exact this.congr (fun c => by rw [h1, hV]) (fun c => by rw [h2, hφ])

/-! ### symbols -/

/-- the polynomial whose values are the codeword of the row `a`: its coefficients
are `a`, or, in systematic mode, its values at the first `k` points are `a` -/
noncomputable def cpoly {F : GF} (S : F.Sim (ZMod p)) (g : ZMod p) (sys : Bool) (k : Nat) (a : Array Nat) : (ZMod p)[X] :=
  if sys then Lagrange.interpolate (range k) (fun i => g ^ i) (fun i => S.φ (gt a i)) else polyOf S a

/-- symbol `j` of the codeword of `a` -/
noncomputable def csym {F : GF} (S : F.Sim (ZMod p)) (g : ZMod p) (sys : Bool) (k : Nat) (a : Array Nat) (j : Nat) : Nat :=
  ((cpoly S g sys k a).eval (g ^ j)).val

/-- the symbol of output `f` -/
noncomputable def osym {F : GF} (S : F.Sim (ZMod p)) (g : ZMod p) (sys : Bool) (k : Nat) (a : Array Nat) (f : Nat) : Nat :=
  csym S g sys k a (if sys then k + f else f)

/-- what is stored of it -/
noncomputable def ostored {F : GF} (S : F.Sim (ZMod p)) (g : ZMod p) (e : Nat) (sys : Bool) (k : Nat) (a : Array Nat) (f : Nat) : Nat :=
  if osym S g sys k a f = 2 ^ e then 0 else osym S g sys k a f

/-- its mark -/
noncomputable def omark {F : GF} (S : F.Sim (ZMod p)) (g : ZMod p) (e : Nat) (sys : Bool) (k : Nat) (a : Array Nat) (f : Nat) : Option Nat :=
  if osym S g sys k a f = 2 ^ e then some OOR_MARK else none

variable {B : FecBase} {e k m : Nat} {S : B.F.Sim (ZMod p)} {n len_2k : Nat} {g g2 : ZMod p} {okLen : Nat → Prop}

theorem csym_le (hp : p = 2 ^ e + 1) (sys : Bool) (a : Array Nat) (f : Nat) : csym S g sys k a f ≤ 2 ^ e := by
  have := ZMod.val_lt ((cpoly S g sys k a).eval (g ^ f))
  unfold csym; omega

theorem osym_le (hp : p = 2 ^ e + 1) (sys : Bool) (a : Array Nat) (f : Nat) : osym S g sys k a f ≤ 2 ^ e :=
  csym_le hp sys a _

theorem csym_cast (sys : Bool) (a : Array Nat) (j : Nat) :
    ((csym S g sys k a j : Nat) : ZMod p) = (cpoly S g sys k a).eval (g ^ j) := by
  unfold csym; rw [ZMod.natCast_zmod_val]

theorem csym_of_cast {v : Nat} (hv : v < p) {sys : Bool} {a : Array Nat} {j : Nat}
    (h : (v : ZMod p) = (cpoly S g sys k a).eval (g ^ j)) : v = csym S g sys k a j := by
  unfold csym
  rw [← h, ZMod.val_natCast_of_lt hv]

theorem inj_pow (hg : IsPrimitiveRoot g n) (hkn : k ≤ n) : Set.InjOn (fun i => g ^ i) (range k : Set Nat) := by
  intro i hi j hj h
  have hi' : i < k := by simpa using hi
  have hj' : j < k := by simpa using hj
  exact hg.pow_inj (by omega) (by omega) h

theorem cpoly_degree (hg : IsPrimitiveRoot g n) (hkn : k ≤ n) (sys : Bool) {a : Array Nat} (ha : a.size = k) :
    (cpoly S g sys k a).degree < k := by
  unfold cpoly
  cases sys with
  | true =>
    simp only [if_true]
    have := Lagrange.degree_interpolate_lt (s := range k) (v := fun i => g ^ i) (fun i => S.φ (gt a i)) (inj_pow hg hkn)
    simpa using this
  | false =>
    simp only [Bool.false_eq_true, if_false]
    rw [← ha]; exact polyOf_degree_lt S a

/-- in systematic mode the first `k` symbols are the data -/
theorem csym_data (hV : ∀ c, S.φ c = (c : ZMod p)) (hg : IsPrimitiveRoot g n) (hkn : k ≤ n) {a : Array Nat} {i : Nat} (hi : i < k)
    (hv : gt a i < p) : csym S g true k a i = gt a i := by
  symm
  apply csym_of_cast hv
  unfold cpoly
  simp only [if_true]
  rw [Lagrange.eval_interpolate_at_node (v := fun i => g ^ i) (fun i => S.φ (gt a i)) (inj_pow hg hkn) (mem_range.mpr hi), hV]

theorem polyOf_replicate_zero (k : Nat) : polyOf S (Array.replicate k 0) = 0 := by
  ext i
  rw [polyOf_coeff, coeff_zero]
  by_cases h : i < k
  · rw [gt_replicate h, S.zero.2]
  · rw [gt_oob (by simp; omega), S.zero.2]

theorem osym_zero (sys : Bool) (f : Nat) : osym S g sys k (Array.replicate k 0) f = 0 := by
  unfold osym csym
  have : cpoly S g sys k (Array.replicate k 0) = 0 := by
    unfold cpoly
    cases sys with
    | true =>
      simp only [if_true]
      rw [Lagrange.interpolate_eq_of_values_eq_on (r := fun i => S.φ (gt (Array.replicate k 0) i)) (r' := 0)]
      · simp
      · intro i hi
        rw [gt_replicate (by simpa using hi), S.zero.2]; rfl
    | false => simp only [Bool.false_eq_true, if_false]; exact polyOf_replicate_zero k
  rw [this]; simp

theorem sum_eval {P : (ZMod p)[X]} (hP : P.degree < k) {x : Nat → ZMod p} (hx : ∀ j, j < k → x j = P.coeff j) (i : Nat) :
    ∑ j ∈ range k, g ^ (i * j) * x j = P.eval (g ^ i) := by
  rcases Nat.eq_zero_or_pos k with rfl | hk
  · have : P = 0 := by
      rw [← degree_eq_bot]
      by_contra h
      have := Polynomial.degree_ne_bot.mp h
      rw [degree_eq_natDegree this] at hP
      simp at hP
    simp [this]
  · have hn : P.natDegree < k := by
      by_cases h0 : P = 0
      · simp [h0, hk]
      · exact (natDegree_lt_iff_degree_lt h0).mpr hP
    rw [eval_eq_sum_range' hn]
    refine sum_congr rfl (fun j hj => ?_)
    rw [hx j (mem_range.mp hj), ← pow_mul, mul_comm]

/-! ### marking -/

theorem markLoop_spec {size chunk off : Nat} {H : Heap} {P : Properties} (hc : chunk < H.size) (hs : (gt H chunk).size = size)
    (hv : ∀ c, c < size → el H chunk c ≤ 2 ^ e) :
    RsFntObj.markLoop size (2 ^ e) chunk off H P = .ok ⟨P.props ++
      (marksOf (fun c => if el H chunk c = 2 ^ e then some OOR_MARK else none) size).map (fun x => (off + x.1, x.2))⟩ := by
  obtain ⟨r, er, hr⟩ := forN_inv (n := size) (s := P) (f := fun j P => do
      let v ← Heap.rdEl H chunk j
      if v &&& 2 ^ e ≠ 0 then pure (P.add (off + j) OOR_MARK) else pure P)
    (I := fun t (r : Properties) => r = ⟨P.props ++
      (marksOf (fun c => if el H chunk c = 2 ^ e then some OOR_MARK else none) t).map (fun x => (off + x.1, x.2))⟩)
    (by simp [marksOf]) (by
      rintro t r ht rfl
      rw [Heap.rdEl_ok hc (by omega), ok_bind]
      have hb := hv t ht
      unfold el at hb
      by_cases h : gt (gt H chunk) t = 2 ^ e
      · rw [if_pos ((and_two_pow_of_le hb).mpr h)]
        refine ⟨_, rfl, ?_⟩
        rw [marksOf_succ]
        simp [el, h, Properties.add]
      · rw [if_neg (fun hh => h ((and_two_pow_of_le hb).mp hh))]
        refine ⟨_, rfl, ?_⟩
        rw [marksOf_succ]
        simp [el, h])
  unfold RsFntObj.markLoop
  rw [er, hr]

theorem post_process_buf_spec {off pkt : Nat} (hcard : B.F.card = 2 ^ e + 1) {output : Bufs} {props : Array Properties} {H : Heap}
    (h1 : B.n_outputs ≤ output.n) (h2 : B.n_outputs ≤ output.mem.size) (h3 : output.size = pkt) (h4 : B.n_outputs ≤ props.size)
    (ho : Okb pkt H output.mem) (hv : ∀ f, f < B.n_outputs → ∀ c, c < pkt → el H (gt output.mem f) c ≤ 2 ^ e) :
    ∃ props', RsFntObj.encode_post_process B output props off H = .ok props' ∧ props'.size = props.size ∧
      ∀ f, f < B.n_outputs → gt props' f = ⟨(gt props f).props ++
        (marksOf (fun c => if el H (gt output.mem f) c = 2 ^ e then some OOR_MARK else none) pkt).map (fun x => (off + x.1, x.2))⟩ := by
  have hth : B.F.card - 1 = 2 ^ e := by rw [hcard]; exact Nat.add_sub_cancel _ _
  unfold RsFntObj.encode_post_process
  simp only [hth, h3]
  obtain ⟨r, er, i1, i2, _⟩ := forN_inv (n := B.n_outputs) (s := props) (f := fun i props => do
      let chunk ← output.get i
      let P ← rd props i
      let P ← RsFntObj.markLoop pkt (2 ^ e) chunk off H P
      wr props i P)
    (I := fun t (r : Array Properties) => r.size = props.size ∧ (∀ f, f < t → gt r f = ⟨(gt props f).props ++
        (marksOf (fun c => if el H (gt output.mem f) c = 2 ^ e then some OOR_MARK else none) pkt).map (fun x => (off + x.1, x.2))⟩) ∧
      ∀ f, t ≤ f → gt r f = gt props f)
    ⟨rfl, by simp, fun _ _ => rfl⟩ (by
      rintro t r ht ⟨i1, i2, i3⟩
      have hg : output.get t = .ok (gt output.mem t) := by
        unfold Bufs.get
        simp only [cassert, show t < output.n by omega, decide_true, if_true, ok_bind]
        exact rd_gt (by omega)
      have ho' := ho t (by omega)
      refine ⟨_, by rw [hg, ok_bind, rd_gt (a := r) (by omega), ok_bind,
        markLoop_spec ho'.1 ho'.2 (hv t ht), ok_bind, wr_ok (by omega)], by simp [i1], fun f hf => ?_, fun f hf => ?_⟩
      · rw [gt_set (by omega)]
        by_cases h : f = t
        · subst h; rw [if_pos rfl, i3 f le_rfl]
        · rw [if_neg h]; exact i2 f (by omega)
      · rw [gt_set (by omega), if_neg (by omega)]; exact i3 f (by omega))
  exact ⟨r, er, i1, i2⟩

end RsFnt

/-- what the FNT code needs of a build, over `Z/pZ` with `p = 2^e + 1` -/
structure Build.Good (bd : Build) (p e : Nat) [Fact p.Prime] : Prop where
  fft : ∀ {L dl pkt : Nat} {g : ZMod p} {R : Radix2}, RsFnt.FftOver p L dl g R → L < 31 → 0 < dl →
    ∀ {F : GF} (S : F.Sim (ZMod p)), (∀ c, S.V c ↔ c < p) → (∀ c, S.φ c = (c : ZMod p)) →
    (bd.fth R pkt).Spec S pkt (2 ^ L) g (fun m => 0 < m ∧ ∃ d, d ≤ L ∧ (if m > dl then m else dl) = 2 ^ d)
  ops : ∀ {F : GF} (S : F.Sim (ZMod p)), (∀ c, S.V c ↔ c < p) → (∀ c, S.φ c = (c : ZMod p)) → F.card = p → F.cardM1 = p - 1 →
    bd.Ops S
  post : ∀ {B : FecBase} {off : Nat}, B.F.card = 2 ^ e + 1 → ∀ {output : Bufs} {props : Array Properties} {H : Heap},
    B.n_outputs ≤ output.n → B.n_outputs ≤ output.mem.size → output.size = B.pkt_size → B.n_outputs ≤ props.size →
    Okb B.pkt_size H output.mem → (∀ f, f < B.n_outputs → ∀ c, c < B.pkt_size → el H (gt output.mem f) c ≤ 2 ^ e) →
    ∃ props', bd.post B output props off H = .ok props' ∧ props'.size = props.size ∧
      ∀ f, f < B.n_outputs → gt props' f = ⟨(gt props f).props ++
        (marksOf (fun c => if el H (gt output.mem f) c = 2 ^ e then some OOR_MARK else none) B.pkt_size).map (fun x => (off + x.1, x.2))⟩

theorem Build.scalar_good {p e : Nat} [Fact p.Prime] : Build.scalar.Good p e :=
  ⟨fun h hL hdl _ S hV hφ => h.spec hL hdl S hV hφ, fun S _ _ _ _ => Build.scalar_ops S,
    fun hcard _ _ _ h1 h2 h3 h4 ho hv => RsFnt.post_process_buf_spec hcard h1 h2 h3 h4 ho hv⟩

/-! ### the object -/

section
variable {p : Nat} [Fact p.Prime]

/-- an FNT object for packets as built by the constructor, apart from its blocks -/
structure RsFntObj.Built (R : RsFntObj) (p e k m : Nat) [Fact p.Prime] (S : R.code.base.F.Sim (ZMod p)) (n len_2k : Nat)
    (g g2 : ZMod p) (okLen okB okB2 : Nat → Prop) : Prop where
  good : RsFnt.Good R.code.base p e k m S n len_2k g g2 okLen
  neg1 : S.Neg1
  build : R.code.build.Good p e
  ops : R.code.build.Ops S
  fft : R.code.fft.Spec S R.code.base.pkt_size n g okB
  fft2 : R.code.fft_2k.Spec S R.code.base.pkt_size len_2k g2 okB2
  ok : okB k
  ok2 : okB2 k

/-- its blocks in systematic mode -/
structure RsFntObj.SysLive (R : RsFntObj) (S : R.code.base.F.Sim (ZMod p)) (k m n len_2k : Nat) (g g2 : ZMod p) (b0 z : Nat)
    (C : CtxB) (H : Heap) : Prop where
  zlt : z < b0
  shape : C.Shape k n len_2k R.code.base.pkt_size (Array.ofFn (fun i : Fin k => i.1)) R.inter_words z
  mem : C.Mem R.code.base.pkt_size z H
  vec : C.Vec S k len_2k g g2 (Array.ofFn (fun i : Fin k => i.1))
  plt : ∀ i, i < C.ptrs.size → gt C.ptrs i < b0
  ssz : R.suffix_words.mem.size = n - k - m
  ssize : R.suffix_words.size = R.code.base.pkt_size
  sinj : InjPtr R.suffix_words.mem
  sok : Okb R.code.base.pkt_size H R.suffix_words.mem
  slt : ∀ i, i < R.suffix_words.mem.size → gt R.suffix_words.mem i < b0
  sdis : Disj R.suffix_words.mem C.ptrs
  sz : ∀ i, i < R.suffix_words.mem.size → gt R.suffix_words.mem i ≠ z
  dn : R.code.dec_inter_codeword.n = n
  dsz : R.code.dec_inter_codeword.mem.size = n
  dinj : InjPtr R.code.dec_inter_codeword.mem
  dok : Okb R.code.base.pkt_size H R.code.dec_inter_codeword.mem
  dlt : ∀ i, i < R.code.dec_inter_codeword.mem.size → gt R.code.dec_inter_codeword.mem i < b0
  ddis : Disj R.code.dec_inter_codeword.mem C.ptrs
  dds : Disj R.code.dec_inter_codeword.mem R.suffix_words.mem
  dz : ∀ i, i < R.code.dec_inter_codeword.mem.size → gt R.code.dec_inter_codeword.mem i ≠ z

/-- its blocks -/
def RsFntObj.Live (R : RsFntObj) (S : R.code.base.F.Sim (ZMod p)) (k m n len_2k : Nat) (g g2 : ZMod p) (b0 : Nat)
    (C : CtxB) (H : Heap) : Prop :=
  b0 ≤ H.size ∧ (R.code.base.sys = true → ∃ z, R.SysLive S k m n len_2k g g2 b0 z C H)

namespace RsFntObj
variable {R : RsFntObj} {e k m : Nat} {S : R.code.base.F.Sim (ZMod p)} {n len_2k : Nat} {g g2 : ZMod p}
  {okLen okB okB2 : Nat → Prop} {b0 : Nat}

theorem Okb.same {pkt : Nat} {H H' : Heap} {mem : Array Nat} (h : Okb pkt H mem) (hs : H.size ≤ H'.size)
    (he : ∀ i, i < mem.size → gt H' (gt mem i) = gt H (gt mem i)) : Okb pkt H' mem := fun i hi => by
  have := h i hi
  rw [he i hi]
  exact ⟨by omega, this.2⟩

theorem SysLive.keep {z : Nat} {C : CtxB} {H H' : Heap} (h : R.SysLive S k m n len_2k g g2 b0 z C H) (hs : H.size ≤ H'.size)
    (he : ∀ b, b < b0 → gt H' b = gt H b) : R.SysLive S k m n len_2k g g2 b0 z C H' where
  zlt := h.zlt
  shape := h.shape
  mem := by
    have h1 : ∀ i, i < C.buf1_2k.mem.size → gt C.buf1_2k.mem i < b0 := fun i hi => by
      have := h.plt i (by unfold CtxB.ptrs; rw [Array.size_append]; omega)
      unfold CtxB.ptrs at this
      rwa [gt_append, if_pos hi] at this
    have h2 : ∀ i, i < C.buf_max_n_2k.mem.size → gt C.buf_max_n_2k.mem i < b0 := fun i hi => by
      have := h.plt (C.buf1_2k.mem.size + i) (by unfold CtxB.ptrs; rw [Array.size_append]; omega)
      unfold CtxB.ptrs at this
      rw [gt_append, if_neg (by omega)] at this
      simpa using this
    exact ⟨Okb.same h.mem.okP hs (fun i hi => he _ (h1 i hi)), Okb.same h.mem.okM hs (fun i hi => he _ (h2 i hi)),
      by have := h.mem.zlt; omega, by rw [he _ h.zlt]; exact h.mem.zv⟩
  vec := h.vec
  plt := h.plt
  ssz := h.ssz
  ssize := h.ssize
  sinj := h.sinj
  sok := Okb.same h.sok hs (fun i hi => he _ (h.slt i hi))
  slt := h.slt
  sdis := h.sdis
  sz := h.sz
  dn := h.dn
  dsz := h.dsz
  dinj := h.dinj
  dok := Okb.same h.dok hs (fun i hi => he _ (h.dlt i hi))
  dlt := h.dlt
  ddis := h.ddis
  dds := h.dds
  dz := h.dz

theorem Live.keep {C : CtxB} {H H' : Heap} (h : R.Live S k m n len_2k g g2 b0 C H) (hs : H.size ≤ H'.size)
    (he : ∀ b, b < b0 → gt H' b = gt H b) : R.Live S k m n len_2k g g2 b0 C H' := by
  refine ⟨by have := h.1; omega, fun hsys => ?_⟩
  obtain ⟨z, hz⟩ := h.2 hsys
  exact ⟨z, hz.keep hs he⟩

/-- writing the blocks of the object, but for the block of zeros -/
theorem SysLive.frame {z : Nat} {C : CtxB} {H H' : Heap} (h : R.SysLive S k m n len_2k g g2 b0 z C H)
    (hm : C.Mem R.code.base.pkt_size z H') (h1 : Okb R.code.base.pkt_size H' R.suffix_words.mem)
    (h2 : Okb R.code.base.pkt_size H' R.code.dec_inter_codeword.mem) : R.SysLive S k m n len_2k g g2 b0 z C H' where
  zlt := h.zlt
  shape := h.shape
  mem := hm
  vec := h.vec
  plt := h.plt
  ssz := h.ssz
  ssize := h.ssize
  sinj := h.sinj
  sok := h1
  slt := h.slt
  sdis := h.sdis
  sz := h.sz
  dn := h.dn
  dsz := h.dsz
  dinj := h.dinj
  dok := h2
  dlt := h.dlt
  ddis := h.ddis
  dds := h.dds
  dz := h.dz

theorem idArray_gt {k i : Nat} (h : i < k) : gt (Array.ofFn (fun i : Fin k => i.1)) i = i := gt_ofFn h

/-- the transforms of `encode`: the outputs are the symbols -/
theorem encode_spec (G : R.Built p e k m S n len_2k g g2 okLen okB okB2) {C : CtxB} {H : Heap} {wm om : Array Nat}
    {props : Array Properties} {off : Nat} (hL : R.Live S k m n len_2k g g2 b0 C H) (hws : wm.size = k)
    (hos : om.size = if R.code.base.sys then m else n) (hinj : InjPtr (wm ++ om))
    (hge : ∀ i, i < (wm ++ om).size → b0 ≤ gt (wm ++ om) i) (hok : Okb R.code.base.pkt_size H (wm ++ om))
    (hps : props.size = R.code.base.n_outputs) (hV : ∀ i c, i < k → c < R.code.base.pkt_size → el H (gt wm i) c < p) :
    ∃ H' props', R.encode C ⟨om, if R.code.base.sys then m else n, R.code.base.pkt_size⟩ props off
        ⟨wm, k, R.code.base.pkt_size⟩ H = .ok (C, H', props') ∧
      R.Live S k m n len_2k g g2 b0 C H' ∧ Okb R.code.base.pkt_size H' (wm ++ om) ∧ props'.size = R.code.base.n_outputs ∧
      Only b0 (InMem (wm ++ om)) H H' ∧
      ∀ f, f < R.code.base.n_outputs →
        (∀ c, c < R.code.base.pkt_size → el H' (gt om f) c = RsFnt.osym S g R.code.base.sys k (colOf H wm k c) f) ∧
        gt props' f = ⟨(gt props f).props ++ (marksOf (fun c => RsFnt.omark S g e R.code.base.sys k (colOf H wm k c) f)
          R.code.base.pkt_size).map (fun x => (off + x.1, x.2))⟩ := by
  set pkt := R.code.base.pkt_size with hpkt
  have gd := G.good
  have hk := gd.env.kpos
  have hkn := gd.env.kn
  have hle := gd.le
  have hroot := (gd.env.fft ()).root
  have hno := gd.n_outputs
  -- the transforms
  have Q : ∃ H1 : Heap, (if R.code.base.sys then do
        let (enc, H) ← R.code.decode_apply true C R.inter_words ⟨wm, k, pkt⟩ H
        let tmp ← Bufs.concat ⟨wm, k, pkt⟩ ⟨om, if R.code.base.sys then m else n, pkt⟩
        let out ← Bufs.concat tmp R.suffix_words
        let H ← R.code.fft.fft out.mem R.inter_words.mem H
        pure (enc, H)
      else do
        let H ← R.code.fft.fft om wm H
        pure (C, H)) = .ok (C, H1) ∧ R.Live S k m n len_2k g g2 b0 C H1 ∧ Okb pkt H1 (wm ++ om) ∧ Only b0 (InMem (wm ++ om)) H H1 ∧
      ∀ f, f < R.code.base.n_outputs → ∀ c, c < pkt → el H1 (gt om f) c < p ∧
        (el H1 (gt om f) c : ZMod p) = (RsFnt.cpoly S g R.code.base.sys k (colOf H wm k c)).eval
          (g ^ (if R.code.base.sys then k + f else f)) := by
    by_cases hsys : R.code.base.sys = true
    · rw [if_pos hsys] at hno
      simp only [if_pos hsys] at hos ⊢
      obtain ⟨z, hz⟩ := hL.2 hsys
      have hb0 := hL.1
      have hid : ∀ i, i < k → gt (Array.ofFn (fun i : Fin k => i.1)) i = i := fun i hi => idArray_gt hi
      have hdW : Disj (wm ++ om) C.ptrs := by
        intro i j hi hj he
        have := hge i hi; have := hz.plt j hj; omega
      obtain ⟨H1, e1, f1, m1, v1, c1⟩ := FecB.decode_apply_spec (B := R.code) (S := S) true hk hkn gd.env.k2 hroot
        (gd.env.fft_2k ()).root (gd.env.fft_2k ()).nz G.fft G.fft2 G.ok2 G.ops (C := C) (output := R.inter_words) (words := ⟨wm, k, pkt⟩)
        (H := H) hz.shape hz.mem hz.vec (fun i hi => by rw [hid i hi]; omega)
        (fun i hi j hj he => by
          have hi' : i < k := by simpa using hi
          have hj' : j < k := by simpa using hj
          simp only at he
          rw [hid i hi', hid j hj'] at he; exact he) (fun _ => hid) rfl rfl hws
        (hdW.sub (SubPtr.left _ _) (SubPtr.refl _)) (hok.sub (SubPtr.left _ _)) (fun i c hi hc => (gd.V _).mpr (hV i c hi hc))
      have hsout : R.inter_words.mem = C.buf_max_n_2k.mem.extract 0 k := by rw [hz.shape.out]
      have hiS : SubPtr R.inter_words.mem C.ptrs := by
        rw [hsout]
        exact (SubPtr.extract (by have := hz.shape.mn; omega)).trans (SubPtr.right _ _)
      have his : R.inter_words.mem.size = k := by rw [hsout]; simp; have := hz.shape.mn; omega
      have hok1 : Okb pkt H1 (wm ++ om) := hok.frame f1 hdW.symm
      have hsok1 : Okb pkt H1 R.suffix_words.mem := hz.sok.frame f1 hz.sdis.symm
      have hdok1 : Okb pkt H1 R.code.dec_inter_codeword.mem := hz.dok.frame f1 hz.ddis.symm
      have hWs : Disj (wm ++ om) R.suffix_words.mem := by
        intro i j hi hj he
        have := hge i hi; have := hz.slt j hj; omega
      have hWd : Disj (wm ++ om) R.code.dec_inter_codeword.mem := by
        intro i j hi hj he
        have := hge i hi; have := hz.dlt j hj; omega
      have hdall : Disj (wm ++ om ++ R.suffix_words.mem) C.ptrs := hdW.append_left hz.sdis
      have hallz : ∀ i, i < (wm ++ om ++ R.suffix_words.mem).size → gt (wm ++ om ++ R.suffix_words.mem) i ≠ z := by
        intro i hi
        rw [gt_append]
        split
        · have := hge i (by assumption); have := hz.zlt; omega
        · rw [Array.size_append] at hi
          exact hz.sz _ (by omega)
      have hallok : Okb pkt H1 (wm ++ om ++ R.suffix_words.mem) := hok1.append hsok1
      obtain ⟨H2, e2, f2, o2, g2'⟩ := G.fft.fft (H := H1) (mem := wm ++ om ++ R.suffix_words.mem) (inp := R.inter_words.mem)
        (by rw [Array.size_append, Array.size_append, hws, hos, hz.ssz]; omega) (by rw [his]; exact G.ok)
        (hinj.append hz.sinj hWs) (hdall.sub (SubPtr.refl _) hiS) hallok
        (by rw [hsout]; exact m1.okM.sub (SubPtr.extract (by have := hz.shape.mn; omega)))
        (fun j c hj hc => v1 j c (by omega) hc)
      refine ⟨H2, ?_, ⟨by rw [f2.size, f1.size]; exact hb0, fun _ => ⟨z, ?_⟩⟩, o2.sub (SubPtr.left _ _), ?_, ?_⟩
      · rw [e1, ok_bind]
        simp only
        rw [Bufs.concat_spec (a := ⟨wm, k, pkt⟩) (b := ⟨om, m, pkt⟩) rfl, ok_bind, Bufs.concat_spec hz.ssize.symm, ok_bind]
        simp only
        rw [e2, ok_bind]
        rfl
      · exact hz.frame (m1.frame f2 hdall hallz) (o2.sub (SubPtr.right _ _))
          (hdok1.frame f2 (hWd.append_left hz.dds.symm))
      · refine (Only.of_frame f1 (fun i hi hg => ?_)).trans (Only.of_frame f2 (fun i hi hg => ?_))
        · have := hz.plt i hi; omega
        · rw [gt_append] at hg ⊢
          split
          · exact ⟨i, by assumption, rfl⟩
          · rename_i hc
            rw [if_neg hc] at hg
            have := hz.slt (i - (wm ++ om).size) (by rw [Array.size_append] at hi; omega)
            omega
      · intro f hf c hc
        have hg := g2' (k + f) (by omega) c hc
        have hix : gt (wm ++ om ++ R.suffix_words.mem) (k + f) = gt om f := by
          rw [gt_append, if_pos (by rw [Array.size_append]; omega), gt_append, if_neg (by omega), hws]
          simp
        rw [hix] at hg
        refine ⟨(gd.V _).mp hg.1, ?_⟩
        rw [← gd.φ, hg.2, his]
        have hdeg := RsFnt.cpoly_degree (S := S) hroot hkn.le true (a := colOf H wm k c) (by simp [colOf])
        refine RsFnt.sum_eval (k := k) ?_ ?_ _
        · rw [hsys]; exact hdeg
        · intro j hj
          rw [hsys]
          refine c1 c hc _ hdeg (fun i hi => ?_) j hj
          rw [hid i hi]
          unfold RsFnt.cpoly
          simp only [if_true]
          rw [Lagrange.eval_interpolate_at_node (v := fun i => g ^ i) (fun i => S.φ (gt (colOf H wm k c) i))
            (RsFnt.inj_pow hroot hkn.le) (mem_range.mpr hi)]
          unfold colOf
          rw [gt_ofFn hi]
    · rw [if_neg hsys] at hno
      simp only [if_neg hsys] at hos ⊢
      have hsf : R.code.base.sys = false := by simpa using hsys
      obtain ⟨H1, e1, f1, o1, g1⟩ := G.fft.fft (H := H) (mem := om) (inp := wm) hos (by rw [hws]; exact G.ok) hinj.right
        hinj.disj.symm (hok.sub (SubPtr.right _ _)) (hok.sub (SubPtr.left _ _)) (fun j c hj hc => (gd.V _).mpr (hV j c (by omega) hc))
      refine ⟨H1, by rw [e1]; rfl, ?_, ?_, ?_, ?_⟩
      · exact ⟨by rw [f1.size]; exact hL.1, fun h => absurd h hsys⟩
      · exact ((hok.sub (SubPtr.left _ _)).frame f1 hinj.disj.symm).append o1
      · exact Only.of_frame f1 (fun i hi _ => ⟨wm.size + i, by rw [Array.size_append]; omega, by
          rw [gt_append, if_neg (by omega)]; simp⟩)
      · intro f hf c hc
        have hg := g1 f (by omega) c hc
        refine ⟨(gd.V _).mp hg.1, ?_⟩
        rw [← gd.φ, hg.2, hws]
        have hdeg := RsFnt.cpoly_degree (S := S) hroot hkn.le false (a := colOf H wm k c) (by simp [colOf])
        refine RsFnt.sum_eval (k := k) ?_ ?_ _
        · rw [hsf]; exact hdeg
        · intro j hj
          rw [hsf]
          unfold RsFnt.cpoly
          simp only [Bool.false_eq_true, if_false]
          rw [polyOf_coeff]
          unfold colOf
          rw [gt_ofFn hj]
  obtain ⟨H1, e1, L1, o1, w1, g1⟩ := Q
  have hval : ∀ f, f < R.code.base.n_outputs → ∀ c, c < pkt →
      el H1 (gt om f) c = RsFnt.osym S g R.code.base.sys k (colOf H wm k c) f := by
    intro f hf c hc
    exact RsFnt.csym_of_cast (g1 f hf c hc).1 (g1 f hf c hc).2
  have hout : R.code.base.n_outputs ≤ if R.code.base.sys then m else n := by
    rw [hno]; split <;> omega
  obtain ⟨props', e2, s2, h2⟩ := G.build.post (B := R.code.base) (off := off)
    (by rw [gd.card]; exact gd.hp) (output := ⟨om, if R.code.base.sys then m else n, pkt⟩) (props := props) (H := H1) hout
    (by rw [hos]; exact hout) rfl hps.ge (o1.sub (SubPtr.right _ _)) (fun f hf c hc => by
      show el H1 (gt om f) c ≤ _
      rw [hval f hf c hc]; exact RsFnt.osym_le gd.hp _ _ _)
  refine ⟨H1, props', ?_, L1, o1, by omega, w1, fun f hf => ⟨hval f hf, ?_⟩⟩
  · unfold encode
    rw [e1, ok_bind]
    simp only
    rw [e2, ok_bind]
    rfl
  · rw [h2 f hf]
    congr 3
    apply marksOf_congr
    intro c hc
    simp only
    rw [hval f hf c hc]
    rfl

/-- `decode` on packets with any contents and any marks: the packets written are those of the polynomial through the symbols -/
theorem decode_any (G : R.Built p e k m S n len_2k g g2 okLen okB okB2) {C0 C : CtxB} {H : Heap} {z : Nat} {ids wm om : Array Nat}
    {props : Array Properties} {off : Nat} (hL : R.Live S k m n len_2k g g2 b0 C0 H)
    (hC : C.Shape k n len_2k R.code.base.pkt_size ids ⟨om, k, R.code.base.pkt_size⟩ z) (hM : C.Mem R.code.base.pkt_size z H)
    (hv : C.Vec S k len_2k g g2 ids) (hpg : ∀ i, i < C.ptrs.size → b0 ≤ gt C.ptrs i)
    (hids : ValidIds k (if R.code.base.sys then k + R.code.base.n_outputs else R.code.base.n_outputs) ids)
    (hws : wm.size = k) (hwi : InjPtr wm) (hwg : ∀ i, i < wm.size → b0 ≤ gt wm i) (hwd : Disj wm C.ptrs)
    (hwz : ∀ i, i < wm.size → gt wm i ≠ z) (hzb : b0 ≤ z) (hwo : Okb R.code.base.pkt_size H wm)
    (hps : props.size = R.code.base.n_outputs) (hpi : C.props_indices.size = R.code.base.n_outputs)
    (hpr : ∀ i f, i < k → propOf R.code.base.sys k (gt ids i) = some f →
      (gt props f).Sorted ∧ gt C.props_indices f = (gt props f).below off)
    (hw : ∀ i c, i < k → c < R.code.base.pkt_size → el H (gt wm i) c ≤ 2 ^ e) :
    ∃ pi H', R.code.decode C ⟨om, k, R.code.base.pkt_size⟩ props off ⟨wm, k, R.code.base.pkt_size⟩ H
        = .ok ({ C with props_indices := pi }, H') ∧ pi.size = R.code.base.n_outputs ∧
      (∀ i f, i < k → propOf R.code.base.sys k (gt ids i) = some f → gt pi f = (gt props f).below (off + R.code.base.pkt_size)) ∧
      C.Mem R.code.base.pkt_size z H' ∧ R.Live S k m n len_2k g g2 b0 C0 H' ∧ Okb R.code.base.pkt_size H' wm ∧
      Only b0 (fun b => InMem C.ptrs b ∨ InMem wm b) H H' ∧
      ∀ c, c < R.code.base.pkt_size → ∀ P : (ZMod p)[X], P.degree < k →
        (∀ i, i < k → P.eval (g ^ gt ids i) = (rsym R.code.base.sys k e props ids (el H (gt wm i) c) i (off + c) : ZMod p)) →
        ∀ i, i < k → el H' (gt om i) c = if R.code.base.sys then (P.eval (g ^ i)).val else (P.coeff i).val := by
  set pkt := R.code.base.pkt_size with hpkt
  set sys := R.code.base.sys with hsysd
  have gd := G.good
  have hk := gd.env.kpos
  have hkn := gd.env.kn
  have hle := gd.le
  have hp := gd.hp
  have hroot := (gd.env.fft ()).root
  have hno := gd.n_outputs
  have hkd : R.code.base.n_data = k := gd.n_data
  have hpow : 256 ^ R.code.base.word_size = 2 ^ e := by rw [gd.he, two_pow_8]
  have hltn : ∀ i, i < k → gt ids i < n := by
    intro i hi
    have := hids.lt i hi
    rw [hno] at this
    split at this <;> omega
  -- prepare
  obtain ⟨pi, H1, e1, s1, f1, o1, q1, w1⟩ := FecB.decode_prepare_spec (B := R.code) (C := C) (props := props) (off := off)
    (N := R.code.base.n_outputs) (pkt := pkt) (words := ⟨wm, k, pkt⟩) (H := H) rfl (by rw [hkd, hC.idsEq]; exact hids) hps hpi
    (by rw [hkd, hC.idsEq]; exact hpr) hkd.symm (by rw [hkd]; exact hws) hwi hwo
  rw [hkd, hC.idsEq] at q1 w1
  simp only [← hsysd] at f1 o1 w1
  have hsym : ∀ i, i < k → ∀ c, c < pkt → el H1 (gt wm i) c = rsym sys k e props ids (el H (gt wm i) c) i (off + c) := by
    intro i hi c hc
    rw [w1 i hi c hc]
    unfold rsym
    cases propOf sys k (gt ids i) with
    | none => rfl
    | some f => simp only [gd.card, hp, Nat.add_sub_cancel]
  have hsymle : ∀ i, i < k → ∀ c, c < pkt → el H1 (gt wm i) c ≤ 2 ^ e := by
    intro i hi c hc
    rw [hsym i hi c hc]
    have := hw i c hi hc
    unfold rsym
    cases propOf sys k (gt ids i) with
    | none => exact this
    | some f => simp only; split <;> omega
  have hM1 : C.Mem pkt z H1 := hM.frame f1 hwd hwz
  have hL1 : R.Live S k m n len_2k g g2 b0 C0 H1 := hL.keep f1.size.ge (fun b hb => f1.out b (fun i hi he => by
    have := hwg i hi; omega))
  -- apply
  have hC' : ({ C with props_indices := pi } : CtxB).Shape k n len_2k pkt ids ⟨om, k, pkt⟩ z :=
    ⟨hC.len, hC.idsEq, hC.pn, hC.psize, hC.plen, hC.bk, hC.bnlen, hC.bnat, hC.bnz, hC.mn, hC.m2, hC.b2n, hC.b22, hC.out, hC.injP,
      hC.injM, hC.dPM, hC.zP, hC.zM⟩
  obtain ⟨H2, e2, f2, m2, v2, c2⟩ := FecB.decode_apply_spec (B := R.code) (S := S) false hk hkn gd.env.k2 hroot
    (gd.env.fft_2k ()).root (gd.env.fft_2k ()).nz G.fft G.fft2 G.ok2 G.ops (C := { C with props_indices := pi }) (ids := ids)
    (output := ⟨om, k, pkt⟩) (words := ⟨wm, k, pkt⟩) (H := H1) (z := z) hC' ⟨hM1.okP, hM1.okM, hM1.zlt, hM1.zv⟩
    ⟨hv.invSize, hv.inv, hv.ASize, hv.A⟩ hltn
    (fun i hi j hj he => hids.inj i j (by simpa using hi) (by simpa using hj) he) (by simp) rfl rfl hws hwd o1
    (fun i c hi hc => (gd.V _).mpr (by have := hsymle i hi c hc; change el H1 (gt wm i) c < p; omega))
  change Frame C.ptrs H1 H2 at f2
  have hL2 : R.Live S k m n len_2k g g2 b0 C0 H2 := hL1.keep f2.size.ge (fun b hb => f2.out b (fun i hi he => by
    have := hpg i hi; omega))
  have hM2 : C.Mem pkt z H2 := ⟨m2.okP, m2.okM, m2.zlt, m2.zv⟩
  have hwo2 : Okb pkt H2 wm := o1.frame f2 hwd.symm
  have hom : om = C.buf_max_n_2k.mem.extract 0 k := by have := hC.out; simpa using congrArg Bufs.mem this
  have homS : SubPtr om C.ptrs := by
    rw [hom]
    exact (SubPtr.extract (by have := hC.mn; omega)).trans (SubPtr.right _ _)
  have homs : om.size = k := by rw [hom]; simp; have := hC.mn; omega
  have homi : InjPtr om := by rw [hom]; exact hC.injM.extract (by have := hC.mn; omega)
  have homo : Okb pkt H2 om := by
    rw [hom]; exact hM2.okM.sub (SubPtr.extract (by have := hC.mn; omega))
  have hon : Only b0 (fun b => InMem C.ptrs b ∨ InMem wm b) H H2 :=
    (Only.of_frame f1 (fun i hi _ => Or.inr ⟨i, hi, rfl⟩)).trans (Only.of_frame f2 (fun i hi _ => Or.inl ⟨i, hi, rfl⟩))
  have hcoef : ∀ c, c < pkt → ∀ P : (ZMod p)[X], P.degree < k →
      (∀ i, i < k → P.eval (g ^ gt ids i) = (rsym sys k e props ids (el H (gt wm i) c) i (off + c) : ZMod p)) →
      ∀ i, i < k → S.φ (el H2 (gt om i) c) = P.coeff i := by
    intro c hc P hP hev
    exact c2 c hc P hP (fun i hi => by
      show S.φ (el H1 (gt wm i) c) = _
      rw [hsym i hi c hc, gd.φ, hev i hi])
  by_cases hsys : sys = true
  · -- back to the data
    obtain ⟨zs, hz⟩ := hL2.2 hsys
    have hdo : Disj R.code.dec_inter_codeword.mem om := by
      intro i j hi hj he
      have h1 := hz.dlt i hi
      obtain ⟨t, ht, het⟩ := homS j hj
      have := hpg t ht
      omega
    obtain ⟨H3, e3, f3, o3, g3⟩ := G.fft.fft (H := H2) (mem := R.code.dec_inter_codeword.mem) (inp := om) hz.dsz (by rw [homs]; exact G.ok)
      hz.dinj hdo hz.dok homo (fun j c hj hc => v2 j c (by omega) hc)
    have hL3 : R.Live S k m n len_2k g g2 b0 C0 H3 := by
      refine ⟨by rw [f3.size]; exact hL2.1, fun _ => ⟨zs, hz.frame (hz.mem.frame f3 hz.ddis hz.dz)
        (hz.sok.frame f3 hz.dds) o3⟩⟩
    have hM3 : C.Mem pkt z H3 := hM2.frame f3 (fun i j hi hj he => by
        have := hz.dlt i hi; have := hpg j hj; omega) (fun i hi he => by have := hz.dlt i hi; omega)
    have hwo3 : Okb pkt H3 wm := hwo2.frame f3 (fun i j hi hj he => by
        have := hz.dlt i hi; have := hwg j hj; omega)
    have homo3 : Okb pkt H3 om := homo.frame f3 hdo
    obtain ⟨H4, e4, f4, g4, _⟩ := rowLoop (dest := om) (pkt := pkt) (m := k) (H := H3)
      (P := fun i H x => x = gt H (gt R.code.dec_inter_codeword.mem i))
      (body := fun i H => do
        let s ← R.code.dec_inter_codeword.get i
        Bufs.copyAt H ⟨om, k, pkt⟩ i s) homi homs.ge (by
        intro i Ha Hb x hi h hx
        rw [hx, h _ (fun j hj he => hdo i j (by rw [hz.dsz]; omega) (by omega) he.symm)]) (by
        intro i Ha hi hsz h
        have hd1 := o3 i (by rw [hz.dsz]; omega)
        have ho1 := homo3 i (by omega)
        have e5 : gt Ha (gt om i) = gt H3 (gt om i) := h _ (fun j hj he => by
          have := homi j i (by omega) (by omega) he; omega)
        have e6 : gt Ha (gt R.code.dec_inter_codeword.mem i) = gt H3 (gt R.code.dec_inter_codeword.mem i) :=
          h _ (fun j hj he => hdo i j (by rw [hz.dsz]; omega) (by omega) he.symm)
        obtain ⟨Hc, ec, oc, gc⟩ := Heap.cpy_spec (H := Ha) (d := gt om i) (s := gt R.code.dec_inter_codeword.mem i) (pkt := pkt)
          (by omega) (by omega) (by rw [e5]; exact ho1.2) (by rw [e6]; exact hd1.2)
        refine ⟨Hc, ?_, oc, by rw [gc, e6]; exact hd1.2, gc⟩
        unfold Bufs.get Bufs.copyAt
        simp only [cassert, hz.dn, show i < n by omega, decide_true, if_true, ok_bind]
        rw [rd_gt (a := R.code.dec_inter_codeword.mem) (by rw [hz.dsz]; omega), ok_bind, rd_gt (a := om) (by omega), ok_bind, ec])
    have f4p : Frame C.ptrs H3 H4 := f4.mono homS
    have homo4 : Okb pkt H4 om := fun i hi => ⟨by rw [f4.size]; exact (homo3 i hi).1, (g4 i (by omega)).1⟩
    refine ⟨pi, H4, ?_, s1, q1, ?_, ?_, ?_, ?_, ?_⟩
    · unfold FecB.decode
      rw [e1, ok_bind]
      simp only
      rw [e2, ok_bind]
      simp only
      rw [if_pos hsys, e3, ok_bind, hkd, e4, ok_bind]
      rfl
    · refine ⟨hM3.okP.frame f4 ?_, ?_, by rw [f4.size]; exact hM3.zlt, ?_⟩
      · rw [hom]; exact (hC.dPM.symm.sub (SubPtr.extract (by have := hC.mn; omega)) (SubPtr.refl _))
      · intro i hi
        rw [f4.size]
        refine ⟨(hM3.okM i hi).1, ?_⟩
        by_cases hik : i < k
        · have := (homo4 i (by omega)).2
          rw [hom, gt_extract (by omega) (by have := hC.mn; omega)] at this
          simpa using this
        · rw [f4.out _ (fun j hj he => ?_)]
          · exact (hM3.okM i hi).2
          · rw [hom, gt_extract (by omega) (by have := hC.mn; omega)] at he
            have := hC.injM (0 + j) i (by have := hC.mn; omega) hi he
            omega
      · rw [f4.out z (fun j hj he => ?_)]
        · exact hM3.zv
        · rw [hom, gt_extract (by omega) (by have := hC.mn; omega)] at he
          exact hC.zM (0 + j) (by have := hC.mn; omega) he
    · exact hL3.keep f4.size.ge (fun b hb => f4p.out b (fun i hi he => by have := hpg i hi; omega))
    · exact hwo3.frame f4p hwd.symm
    · refine hon.trans ((Only.of_frame f3 (fun i hi hg => ?_)).trans (Only.of_frame f4p (fun i hi _ => Or.inl ⟨i, hi, rfl⟩)))
      have := hz.dlt i hi; omega
    · intro c hc P hP hev i hi
      have h5 := (g4 i hi).2
      have h6 := g3 i (by omega) c hc
      unfold el at h6 ⊢
      rw [h5, if_pos hsys, ← ZMod.val_natCast_of_lt ((gd.V _).mp h6.1)]
      congr 1
      rw [← gd.φ, h6.2, homs]
      exact RsFnt.sum_eval hP (fun j hj => hcoef c hc P hP hev j hj) i
  · have hsf : sys = false := by simpa using hsys
    refine ⟨pi, H2, ?_, s1, q1, hM2, hL2, hwo2, hon, ?_⟩
    · unfold FecB.decode
      rw [e1, ok_bind]
      simp only
      rw [e2, ok_bind]
      simp only
      rw [if_neg hsys]
      rfl
    · intro c hc P hP hev i hi
      have h6 := hcoef c hc P hP hev i hi
      have h7 := (gd.V _).mp (v2 i c hi hc)
      simp only at h7
      rw [if_neg hsys, ← h6, gd.φ, ZMod.val_natCast_of_lt h7]

/-- the word `i` decoded from the symbols `y` of the fragments `ids` -/
noncomputable def ival (g : ZMod p) (sys : Bool) (k : Nat) (ids : Array Nat) (y : Nat → Nat) (i : Nat) : Nat :=
  if sys then ((Lagrange.interpolate (range k) (fun j => g ^ gt ids j) (fun j => (y j : ZMod p))).eval (g ^ i)).val
  else ((Lagrange.interpolate (range k) (fun j => g ^ gt ids j) (fun j => (y j : ZMod p))).coeff i).val

theorem ival_congr {g : ZMod p} {sys : Bool} {k : Nat} {ids : Array Nat} {y y' : Nat → Nat} (h : ∀ j, j < k → y j = y' j) (i : Nat) :
    ival g sys k ids y i = ival g sys k ids y' i := by
  unfold ival
  rw [Lagrange.interpolate_eq_of_values_eq_on (fun j => (y j : ZMod p)) (fun j => (y' j : ZMod p)) (fun j hj => by rw [h j (mem_range.mp hj)])]

theorem ids_inj {g : ZMod p} {k N n : Nat} (hr : IsPrimitiveRoot g n) (hN : N ≤ n) {ids : Array Nat} (hv : ValidIds k N ids) :
    Set.InjOn (fun j => g ^ gt ids j) (range k) := by
  intro i hi j hj he
  have hi' := mem_range.mp (mem_coe.mp hi)
  have hj' := mem_range.mp (mem_coe.mp hj)
  exact hv.inj i j hi' hj' (hr.pow_inj (lt_of_lt_of_le (hv.lt i hi') hN) (lt_of_lt_of_le (hv.lt j hj') hN) he)

theorem ival_eq {g : ZMod p} {sys : Bool} {k N n : Nat} (hr : IsPrimitiveRoot g n) (hN : N ≤ n) {ids : Array Nat} (hv : ValidIds k N ids)
    {y : Nat → Nat} {P : (ZMod p)[X]} (hd : P.degree < k) (he : ∀ j, j < k → P.eval (g ^ gt ids j) = (y j : ZMod p)) (i : Nat) :
    ival g sys k ids y i = if sys then (P.eval (g ^ i)).val else (P.coeff i).val := by
  have := Lagrange.eq_interpolate_of_eval_eq (fun j => (y j : ZMod p)) (ids_inj hr hN hv) (by rwa [card_range])
    (fun j hj => he j (mem_range.mp hj))
  unfold ival
  rw [← this]

/-- the symbols of an encoding give the data back -/
theorem ival_frag (G : R.Built p e k m S n len_2k g g2 okLen okB okB2) {ids : Array Nat} {props : Array Properties} {t T : Nat}
    {rows : Nat → Array Nat} (ha : IsRow R.code.base.word_size k (rows t)) (ht : t < T)
    (hids : ValidIds k (if R.code.base.sys then k + R.code.base.n_outputs else R.code.base.n_outputs) ids)
    (hpr : ∀ i f, i < k → propOf R.code.base.sys k (gt ids i) = some f →
      (gt props f).props = marksOf (fun t => RsFnt.omark S g e R.code.base.sys k (rows t) f) T) {i : Nat} (hi : i < k) :
    ival g R.code.base.sys k ids (fun j => rsym R.code.base.sys k e props ids
      (fragVal R.code.base.sys k (RsFnt.ostored S g e R.code.base.sys k) (rows t) (gt ids j)) j t) i = gt (rows t) i := by
  have gd := G.good
  have hkn := gd.env.kn
  have hle := gd.le
  have hno := gd.n_outputs
  have hp := gd.hp
  have hroot := (gd.env.fft ()).root
  have hpow : 256 ^ R.code.base.word_size = 2 ^ e := by rw [gd.he, two_pow_8]
  obtain ⟨r1, r2⟩ := ha
  generalize R.code.base.sys = sys at *
  have hN : (if sys then k + R.code.base.n_outputs else R.code.base.n_outputs) ≤ n := by rw [hno]; split <;> simp_all
  have hlt : gt (rows t) i < p := by have := r2 i hi; omega
  rw [ival_eq hroot hN hids (P := RsFnt.cpoly S g sys k (rows t)) (RsFnt.cpoly_degree hroot hkn.le _ r1) (fun i hi => ?_)]
  · by_cases hs : sys = true
    · rw [if_pos hs, hs]
      exact RsFnt.csym_data gd.φ hroot hkn.le hi hlt
    · have hsf : sys = false := by simpa using hs
      rw [if_neg hs, hsf]
      unfold RsFnt.cpoly
      simp only [Bool.false_eq_true, if_false]
      rw [polyOf_coeff, gd.φ, ZMod.val_natCast_of_lt hlt]
  rw [← RsFnt.csym_cast]
  congr 1
  have hmem : ∀ f, propOf sys k (gt ids i) = some f →
      ((t, OOR_MARK) ∈ (gt props f).props ↔ RsFnt.osym S g sys k (rows t) f = 2 ^ e) := by
    intro f hf
    rw [hpr i f hi hf]
    constructor
    · intro h
      have := (marksOf_lt _ _ _ h).2
      unfold RsFnt.omark at this
      by_contra hn
      simp only at this
      rw [if_neg hn] at this; cases this
    · intro h
      exact marksOf_mem ht (by unfold RsFnt.omark; rw [if_pos h])
  have hout : ∀ f, propOf sys k (gt ids i) = some f → (if (t, OOR_MARK) ∈ (gt props f).props then 2 ^ e
      else RsFnt.ostored S g e sys k (rows t) f) = RsFnt.osym S g sys k (rows t) f := by
    intro f hf
    unfold RsFnt.ostored
    by_cases h : RsFnt.osym S g sys k (rows t) f = 2 ^ e
    · rw [if_pos ((hmem f hf).mpr h), h]
    · rw [if_neg (fun hh => h ((hmem f hf).mp hh)), if_neg h]
  unfold rsym fragVal
  by_cases hs : sys = true
  · by_cases hlt : gt ids i < k
    · have hn : propOf sys k (gt ids i) = none := by unfold propOf; rw [if_pos hs, if_pos hlt]
      rw [hn, if_pos hs, if_pos hlt, hs, RsFnt.csym_data gd.φ hroot hkn.le hlt]
      have := r2 _ hlt
      omega
    · have hn : propOf sys k (gt ids i) = some (gt ids i - k) := by unfold propOf; rw [if_pos hs, if_neg hlt]
      have := hout _ hn
      rw [hn, if_pos hs, if_neg hlt]
      simp only
      rw [this]
      unfold RsFnt.osym
      rw [if_pos hs, show k + (gt ids i - k) = gt ids i by omega]
  · have hn : propOf sys k (gt ids i) = some (gt ids i) := by unfold propOf; rw [if_neg hs]
    have := hout _ hn
    rw [hn, if_neg hs]
    simp only
    rw [this]
    unfold RsFnt.osym
    rw [if_neg hs]

theorem SameCoef.unit {F : GF} {S : F.Sim (ZMod p)} (h : S.Neg1) : GF.SameCoef (fun _ : Unit => S) :=
  fun _ hv _ l => h.coef (hv l)

theorem propOf_lt {sys : Bool} {k N : Nat} {ids : Array Nat} (hids : ValidIds k (if sys then k + N else N) ids) {i f : Nat} (hi : i < k)
    (hf : propOf sys k (gt ids i) = some f) : f < N ∧ gt ids i = (if sys then k + f else f) := by
  have hlt := hids.lt i hi
  unfold propOf at hf
  cases hs : sys with
  | true =>
    rw [hs] at hf hlt
    simp only [if_true] at hf hlt
    split at hf
    · cases hf
    · cases hf
      refine ⟨by omega, ?_⟩
      simp only [if_true]; omega
  | false =>
    rw [hs] at hf hlt
    simp only [Bool.false_eq_true, if_false] at hf hlt
    cases hf
    exact ⟨hlt, by simp⟩

/-- the FNT code decodes packets with any contents -/
theorem aspec (G : R.Built p e k m S n len_2k g g2 okLen okB okB2) {b : Nat} :
    (R.fecV b).ASpec (ival g R.code.base.sys k) b0 (R.Live S k m n len_2k g g2 b0) := by
  have gd := G.good
  have hk := gd.env.kpos
  have hkn := gd.env.kn
  have hle := gd.le
  have hp := gd.hp
  have hno := gd.n_outputs
  have hkd : R.code.base.n_data = k := gd.n_data
  have hpow : 256 ^ R.code.base.word_size = 2 ^ e := by rw [gd.he, two_pow_8]
  intro props
  constructor
  · exact fun h => congrArg (· % _) h
  · intro ids y y' i h
    exact ival_congr (fun j hj => h j (by show j < R.code.base.n_data; omega)) i
  · intro C0 H ids wm om mem junk hL hids hps h1 h2 h3 h4 h5
    change ValidIds R.code.base.n_data (if R.code.base.sys then R.code.base.n_data + R.code.base.n_outputs else R.code.base.n_outputs) ids at hids
    change props.size = R.code.base.n_outputs at hps
    change wm.size = R.code.base.n_data at h1
    change om.size = R.code.base.n_data at h2
    rw [hkd] at hids h1 h2
    have hidsn : ValidIds R.code.base.n_data n ids := by
      rw [hkd]
      refine ⟨hids.size, hids.inj, fun i hi => ?_⟩
      have := hids.lt i hi
      rw [hno] at this
      split at this <;> omega
    have hinj := ids_inj (gd.env.fft ()).root le_rfl (hkd ▸ hidsn)
    have env := gd.env
    rw [← hkd] at env
    have hb0 := hL.1
    obtain ⟨H', C, z, eC, ext, hC, hM, hv, hpi, hz, hpt⟩ := FecB.init_context_dec_spec (B := R.code) env (SameCoef.unit G.neg1) gd.hn
      (ids := ids) (props := props) mem junk hidsn gd.rpSize (fun _ i hi => by
        refine ⟨(gd.V _).mpr (gd.rp i hi).1, ?_⟩
        rw [gd.φ]; exact (gd.rp i hi).2) (pkt := R.code.base.pkt_size) (output := ⟨om, k, R.code.base.pkt_size⟩) (H := H)
      hkd.symm rfl (by rw [hkd]; exact h2) h3.right (h5.sub (SubPtr.right _ _))
    rw [hkd] at hC hv hpt
    have hoge : ∀ j, j < om.size → b0 ≤ gt om j := fun j hj => by
      have := h4 (wm.size + j) (by rw [Array.size_append]; omega)
      rw [gt_append, if_neg (by omega)] at this
      simpa using this
    have hwge : ∀ j, j < wm.size → b0 ≤ gt wm j := fun j hj => by
      have := h4 j (by rw [Array.size_append]; omega)
      rwa [gt_append, if_pos hj] at this
    have hwlt : ∀ j, j < wm.size → gt wm j < H.size := fun j hj => by
      have := (h5 j (by rw [Array.size_append]; omega)).1
      rwa [gt_append, if_pos hj] at this
    have hpg : ∀ i, i < C.ptrs.size → b0 ≤ gt C.ptrs i := fun i hi => by
      rcases hpt i hi with ⟨j, hj, he⟩ | ⟨hh, _⟩
      · rw [he]; exact hoge j (by omega)
      · omega
    have hwd : Disj wm C.ptrs := fun i j hi hj he => by
      rcases hpt j hj with ⟨t, ht, ht'⟩ | ⟨hh, _⟩
      · rw [ht'] at he
        exact h3.disj i t hi (by omega) he
      · have := hwlt i hi; omega
    have hwz : ∀ i, i < wm.size → gt wm i ≠ z := fun i hi he => by have := hwlt i hi; omega
    have hpe := fun i f (hi : i < k) hf => propOf_lt hids hi (f := f) hf
    have hsorted : ∀ i f, i < k → propOf R.code.base.sys k (gt ids i) = some f →
        gt (props.map Properties.sort) f = (gt props f).sort := fun i f hi hf => gt_map (by rw [hps]; exact (hpe i f hi hf).1)
    refine ⟨fun C' Hh t => ∃ pi, C' = { C with props_indices := pi } ∧ pi.size = R.code.base.n_outputs ∧
      (∀ i f, i < k → propOf R.code.base.sys k (gt ids i) = some f →
        gt pi f = (gt (props.map Properties.sort) f).below t) ∧
      C.Mem R.code.base.pkt_size z Hh ∧ R.Live S k m n len_2k g g2 b0 C0 Hh ∧ Okb R.code.base.pkt_size Hh wm,
      fun b => InMem C.ptrs b ∨ b = z, H', C,
      props.map Properties.sort, ?_, ?_, ext, ?_, ?_, ?_, ?_, ?_, ?_⟩
    · show R.code.init_context_dec ids props R.code.base.pkt_size ⟨om, R.code.base.n_data, R.code.base.pkt_size⟩ mem junk H = _
      rw [hkd]; exact eC
    · refine ⟨C.props_indices, rfl, by rw [hpi]; simp [hps], ?_, hM, hL.keep ext.le (fun b hb => ext.same b (by omega)),
        (h5.sub (SubPtr.left _ _)).ext ext⟩
      intro i f hi hf
      rw [hpi, gt_replicate (by rw [hps]; exact (hpe i f hi hf).1), Properties.below_zero]
    · rintro b (⟨i, hi, rfl⟩ | rfl)
      · refine ⟨hpg i hi, (hM.ptrs_lt i hi), fun hb => ?_⟩
        rcases hpt i hi with ⟨j, hj, he⟩ | ⟨hh, _⟩
        · exact ⟨j, by omega, he.symm⟩
        · omega
      · exact ⟨by omega, hM.zlt, fun hb => by omega⟩
    · rintro b ⟨i, hi, rfl⟩
      have hom : om = C.buf_max_n_2k.mem.extract 0 k := by have := hC.out; simpa using congrArg Bufs.mem this
      have homS : SubPtr om C.ptrs := by
        rw [hom]
        exact (SubPtr.extract (by have := hC.mn; omega)).trans (SubPtr.right _ _)
      obtain ⟨j, hj, he⟩ := homS i hi
      exact Or.inl ⟨j, hj, he.symm⟩
    · rintro C' Ha Hb t ⟨pi, rfl, a1, a2, a3, a4, a5⟩ hs hl ho hw
      exact ⟨pi, rfl, a1, a2, a3.stable hs (fun i hi => ho _ (Or.inl ⟨i, hi, rfl⟩)) (ho _ (Or.inr rfl)), hl, hw⟩
    · rintro C' Hh t ⟨pi, rfl, _, _, a3, a4, a5⟩
      refine ⟨a4, a5, ?_⟩
      have hom : om = C.buf_max_n_2k.mem.extract 0 k := by have := hC.out; simpa using congrArg Bufs.mem this
      rw [hom]
      exact a3.okM.sub (SubPtr.extract (by have := hC.mn; omega))
    · rintro C' Ha Hb t ⟨pi, rfl, a1, a2, a3, a4, a5⟩ hf ho
      refine ⟨pi, rfl, a1, a2, a3.frame hf hwd hwz, a4.keep hf.size.ge (fun b hb => hf.out b (fun i hi he => by
        have := hwge i hi; omega)), ho⟩
    · rintro C' Hh t ⟨pi, rfl, a1, a2, a3, a4, a5⟩ hwords
      change ∀ i c, i < R.code.base.n_data → c < R.code.base.pkt_size → el Hh (gt wm i) c < 256 ^ R.code.base.word_size at hwords
      rw [hkd] at hwords
      have hC' : ({ C with props_indices := pi } : CtxB).Shape k n len_2k R.code.base.pkt_size ids ⟨om, k, R.code.base.pkt_size⟩ z :=
        ⟨hC.len, hC.idsEq, hC.pn, hC.psize, hC.plen, hC.bk, hC.bnlen, hC.bnat, hC.bnz, hC.mn, hC.m2, hC.b2n, hC.b22, hC.out, hC.injP,
          hC.injM, hC.dPM, hC.zP, hC.zM⟩
      obtain ⟨pi', Hn, en, b1, b2, b3, b4, b5, b7, b6⟩ := decode_any G (C := { C with props_indices := pi }) (z := z) (ids := ids)
        (wm := wm) (om := om) (props := props.map Properties.sort) (off := t) a4 hC'
        ⟨a3.okP, a3.okM, a3.zlt, a3.zv⟩ ⟨(hv ()).invSize, (hv ()).inv, (hv ()).ASize, (hv ()).A⟩ hpg hids h1 h3.left hwge hwd hwz
        (by omega) a5 (by simp [hps]) a1 (fun i f hi hf => ⟨by rw [hsorted i f hi hf]; exact Properties.sort_sorted _, a2 i f hi hf⟩)
        (fun i c hi hc => by have := hwords i c hi hc; omega)
      refine ⟨{ C with props_indices := pi' }, Hn, ?_, ⟨pi', rfl, b1, b2, ⟨b3.okP, b3.okM, b3.zlt, b3.zv⟩, b4, b5⟩,
        ⟨b7.1, fun b hb hn => b7.2 b hb (fun h => hn (h.imp_left Or.inl))⟩, ?_⟩
      · show R.code.decode _ ⟨om, R.code.base.n_data, R.code.base.pkt_size⟩ _ t ⟨wm, R.code.base.n_data, R.code.base.pkt_size⟩ Hh = _
        rw [hkd]; exact en
      · intro i c hi hc
        change i < R.code.base.n_data at hi
        change c < R.code.base.pkt_size at hc
        rw [hkd] at hi
        show _ = ival g R.code.base.sys k ids (fun j => rsym R.code.base.sys R.code.base.n_data (8 * R.code.base.word_size) props ids
          (el Hh (gt wm j) c) j (t + c)) i
        rw [hkd, ← gd.he]
        rw [b6 c hc (Lagrange.interpolate (range k) (fun j => g ^ gt ids j) (fun j => (rsym R.code.base.sys k e props ids
            (el Hh (gt wm j) c) j (t + c) : ZMod p))) (by
          have := Lagrange.degree_interpolate_lt (fun j => (rsym R.code.base.sys k e props ids (el Hh (gt wm j) c) j (t + c) : ZMod p)) hinj
          rwa [card_range] at this) (fun i hi => by
          rw [Lagrange.eval_interpolate_at_node _ hinj (mem_range.mpr hi)]
          congr 1
          unfold rsym
          cases hf : propOf R.code.base.sys k (gt ids i) with
          | none => rfl
          | some f =>
            simp only
            rw [hsorted i f hi hf]
            exact ite_congr (propext (Properties.sort_perm _).mem_iff.symm) (fun _ => rfl) (fun _ => rfl)) i hi]
        rfl

/-- the FNT code on packets -/
theorem vspec (G : R.Built p e k m S n len_2k g g2 okLen okB okB2) (hw : WordSize R.code.base.word_size) {b : Nat}
    (hb : 8 * R.code.base.word_size ≤ b) :
    (R.fecV b).VSpec (RsFnt.ostored S g e R.code.base.sys k) (RsFnt.omark S g e R.code.base.sys k) b0
      (R.Live S k m n len_2k g g2 b0) := by
  have gd := G.good
  have hk := gd.env.kpos
  have hkn := gd.env.kn
  have hle := gd.le
  have hp := gd.hp
  have hno := gd.n_outputs
  have hkd : R.code.base.n_data = k := gd.n_data
  have hpow : 256 ^ R.code.base.word_size = 2 ^ e := by rw [gd.he, two_pow_8]
  have hgn : (R.fecV b).get_n_outputs = if R.code.base.sys then m else n := by
    show (if R.code.base.sys then R.code.base.n_parities else R.code.base.n) = _
    rw [gd.n_parities, gd.hn]
  have hpos : 0 < 2 ^ e := by positivity
  refine ⟨hw, hb, by show 0 < R.code.base.n_data; omega, ?_, ?_, ?_, ?_, ?_, ?_, fun h => h.1, fun h h1 h2 => h.keep h1 h2, ?_, ?_⟩
  · show R.code.base.code_len = R.code.base.n_data + R.code.base.n_parities
    rw [gd.code_len, hkd, gd.n_parities]
  · show R.code.base.n_outputs = if R.code.base.sys then R.code.base.n_parities else R.code.base.code_len
    rw [hno, gd.n_parities, gd.code_len]
  · rw [hgn]; show R.code.base.n_outputs ≤ _
    rw [hno]; split <;> omega
  · intro a f _ _
    show RsFnt.ostored S g e R.code.base.sys k a f < 256 ^ R.code.base.word_size
    rw [hpow]
    unfold RsFnt.ostored
    have := RsFnt.osym_le (S := S) (g := g) (k := k) hp R.code.base.sys a f
    split
    · exact hpos
    · omega
  · intro f _
    show RsFnt.omark S g e R.code.base.sys k (Array.replicate R.code.base.n_data 0) f = none
    unfold RsFnt.omark
    rw [hkd, RsFnt.osym_zero, if_neg (by omega)]
  · intro f _
    show RsFnt.ostored S g e R.code.base.sys k (Array.replicate R.code.base.n_data 0) f = 0
    unfold RsFnt.ostored
    rw [hkd, RsFnt.osym_zero, if_neg (by omega)]
  · intro C H wm om props off hL h1 h2 h3 h4 h5 h6 h7
    rw [hgn] at h2 ⊢
    change wm.size = R.code.base.n_data at h1
    change ∀ c, c < R.code.base.pkt_size → IsRow R.code.base.word_size R.code.base.n_data (colOf H wm R.code.base.n_data c) at h7
    rw [hkd] at h1 h7
    obtain ⟨H', props', ee, l', o', s', u', hh⟩ := encode_spec G (wm := wm) (om := om) (props := props) (off := off) hL h1 h2 h3 h4 h5 h6
      (fun i c hi hc => by
        have := (h7 c hc).2 i hi
        unfold colOf at this
        rw [gt_ofFn hi] at this
        simp only at this
        omega)
    refine ⟨C, H', props', ?_, l', o', s', rfl, u', fun f hf => ?_⟩
    · show R.encode C ⟨om, _, R.code.base.pkt_size⟩ props off ⟨wm, R.code.base.n_data, R.code.base.pkt_size⟩ H = _
      rw [hkd]; exact ee
    · obtain ⟨q1, q2⟩ := hh f hf
      show (∀ c, c < R.code.base.pkt_size → el H' (gt om f) c % 256 ^ R.code.base.word_size
        = RsFnt.ostored S g e R.code.base.sys k (colOf H wm R.code.base.n_data c) f) ∧ gt props' f = ⟨_ ++
          (marksOf (fun c => RsFnt.omark S g e R.code.base.sys k (colOf H wm R.code.base.n_data c) f) R.code.base.pkt_size).map _⟩
      rw [hkd]
      refine ⟨fun c hc => ?_, q2⟩
      rw [q1 c hc, hpow]
      unfold RsFnt.ostored
      have := RsFnt.osym_le (S := S) (g := g) (k := k) hp R.code.base.sys (colOf H wm k c) f
      split
      · rename_i h; rw [h, Nat.mod_self]
      · exact Nat.mod_eq_of_lt (by omega)
  · intro C0 H rows T ids props wm om mem junk hL hrows hids hps hprops h1 h2 h3 h4 h5
    change ∀ t, t < T → IsRow R.code.base.word_size R.code.base.n_data (rows t) at hrows
    change ∀ i f, i < R.code.base.n_data → f < R.code.base.n_outputs →
      gt ids i = (if R.code.base.sys then R.code.base.n_data + f else f) → _ at hprops
    rw [hkd] at hrows hprops
    obtain ⟨Good, Own, H', C, props', e1, e2, e3, e4, e5, e6, e7, e8, e9⟩ := (aspec G (b := b) props).dec mem junk hL hids hps h1 h2 h3 h4 h5
    refine ⟨Good, Own, H', C, props', e1, e2, e3, e4, e5, e6, e7, e8, ?_⟩
    change ValidIds R.code.base.n_data (if R.code.base.sys then R.code.base.n_data + R.code.base.n_outputs else R.code.base.n_outputs) ids at hids
    rw [hkd] at hids
    intro C' Hh t ht hG hwords
    change t + R.code.base.pkt_size ≤ T at ht
    change ∀ i c, i < R.code.base.n_data → c < R.code.base.pkt_size →
          el Hh (gt wm i) c = fragVal R.code.base.sys R.code.base.n_data _ (rows (t + c)) (gt ids i) at hwords
    rw [hkd] at hwords
    obtain ⟨C2, H2, q1, q2, q3, q4⟩ := e9 hG (fun i c hi hc => by
      change i < R.code.base.n_data at hi
      change c < R.code.base.pkt_size at hc
      show _ < 256 ^ R.code.base.word_size
      rw [hwords i c (by omega) hc]
      have hr := hrows (t + c) (by omega)
      have hst : ∀ f, RsFnt.ostored S g e R.code.base.sys k (rows (t + c)) f < 256 ^ R.code.base.word_size := by
        intro f
        rw [hpow]
        unfold RsFnt.ostored
        have := RsFnt.osym_le (S := S) (g := g) (k := k) hp R.code.base.sys (rows (t + c)) f
        split <;> omega
      unfold fragVal
      split
      · split
        · rename_i h; exact hr.2 _ h
        · exact hst _
      · exact hst _)
    refine ⟨C2, H2, q1, q2, q3, fun i c hi hc => ?_⟩
    change i < R.code.base.n_data at hi
    change c < R.code.base.pkt_size at hc
    rw [q4 i c hi hc]
    show ival g R.code.base.sys k ids (fun j => rsym R.code.base.sys R.code.base.n_data (8 * R.code.base.word_size) props ids
      (el Hh (gt wm j) c) j (t + c)) i = _
    rw [hkd, ← gd.he] at *
    rw [ival_congr (y' := fun j => rsym R.code.base.sys k e props ids
      (fragVal R.code.base.sys k (RsFnt.ostored S g e R.code.base.sys k) (rows (t + c)) (gt ids j)) j (t + c)) (fun j hj => by
        rw [hwords j c hj hc])]
    exact ival_frag G (hrows (t + c) (by omega)) (T := T) (by omega) hids (fun i f hi hf => by
      obtain ⟨q1, q2⟩ := propOf_lt hids hi hf
      rw [hprops i f hi q1 q2]) hi

/-- the constructor of the FNT code for packets -/
theorem mk'_spec {b db w k m : Nat} (hw : w < 4) (hp : p = 2 ^ (8 * w) + 1)
    (hp2 : p ≠ 2) (hfit : (RingModN.mk b db true p).Fits) (hb : b % 2 = 0) (hk : 0 < k) (hm : 0 < m)
    (hkm : k + m ≤ 2 ^ (8 * w)) (hk2 : 2 * k ≤ 2 ^ (8 * w)) :
    ∃ g : ZMod p, ∀ (bd : Build), bd.Good p (8 * w) → ∀ (sys : Bool) (pkt : Nat) (mem : Nat → Nat) (junk : Nat → Nat → Nat) (H : Heap),
    ∃ H' R, mk' bd b db sys w k m pkt mem junk H = .ok (H', R) ∧ R.code.base.sys = sys ∧ R.code.base.word_size = w ∧
      R.code.base.pkt_size = pkt ∧ RsFnt.mkBase b db sys w k m pkt mem = .ok R.code.base ∧ Ext H H' ∧
      ∃ (S : R.code.base.F.Sim (ZMod p)) (n len_2k : Nat) (g2 : ZMod p) (okLen okB okB2 : Nat → Prop),
        R.Built p (8 * w) k m S n len_2k g g2 okLen okB okB2 ∧ R.Live S k m n len_2k g g2 H'.size R.enc_context H' := by
  obtain ⟨g, hall⟩ := RsFnt.mkBase_all (db := db) hw hp hp2 hfit hb hk hm hkm hk2
  refine ⟨g, fun bd hbd sys pkt mem junk H => ?_⟩
  obtain ⟨B, eB, hsys, hws, hpkt, S, n, len_2k, g2, okLen, gd, fs⟩ := hall sys pkt mem
  obtain ⟨L, L2, d, Rr, R2, rfl, rfl, hL, hL2, hd, hkd, ec, eR, eR2, o1, o2⟩ := fs.ex
  have hFft : (bd.fth Rr pkt).Spec S pkt (2 ^ L) g _ := hbd.fft o1 hL (by positivity) S gd.V gd.φ
  have hFft2 : (bd.fth R2 pkt).Spec S pkt (2 ^ L2) g2 _ := hbd.fft o2 hL2 (by positivity) S gd.V gd.φ
  have hops := hbd.ops S gd.V gd.φ gd.card fs.cardM1
  have hok : 0 < k ∧ ∃ d', d' ≤ L ∧ (if k > 2 ^ d then k else 2 ^ d) = 2 ^ d' := ⟨hk, d, hd, if_neg (by omega)⟩
  have hok2 : 0 < k ∧ ∃ d', d' ≤ L2 ∧ (if k > 2 ^ L2 then k else 2 ^ L2) = 2 ^ d' := by
    refine ⟨hk, L2, le_rfl, if_neg ?_⟩
    have := gd.env.k2; omega
  have len' := gd.env.len
  have hn := gd.hn
  by_cases hs : sys = true
  · subst hs
    have hno : B.n_outputs = m := by rw [gd.n_outputs, hsys]; rfl
    have hle := gd.le
    obtain ⟨H1, Iw, e1, sI, gI, s1, x1, okI, injI⟩ := Bufs.full_spec junk H k pkt
    obtain ⟨H2, Sw, e2, sS, gS, s2, x2, okS, injS⟩ := Bufs.full_spec junk H1 (2 ^ L - k - m) pkt
    have hidsV : ValidIds B.n_data (2 ^ L) (Array.ofFn (fun i : Fin k => i.1)) := by
      rw [gd.n_data]
      refine ⟨by simp, fun i j hi hj he => ?_, fun i hi => ?_⟩
      · rwa [idArray_gt hi, idArray_gt hj] at he
      · rw [idArray_gt hi]; omega
    have env := gd.env
    rw [← gd.n_data] at env
    obtain ⟨H3, C, z, eC, ext, hC, hM, hv, hpi, hz, hpt⟩ := FecB.init_context_dec_spec
      (B := ⟨B, bd, bd.fth Rr pkt, bd.fth R2 pkt, default⟩) env (SameCoef.unit fs.neg1) gd.hn
      (ids := Array.ofFn (fun i : Fin k => i.1)) (props := #[]) mem junk hidsV gd.rpSize (fun _ i hi => by
        refine ⟨(gd.V _).mpr (gd.rp i hi).1, ?_⟩
        rw [gd.φ]; exact (gd.rp i hi).2) (pkt := pkt) (output := ⟨Iw, k, pkt⟩) (H := H2)
      gd.n_data.symm rfl (by rw [gd.n_data]; exact sI) injI (okI.ext x2)
    simp only [gd.n_data] at hC hv hpt
    obtain ⟨H4, Dw, e4, sD, gD, s4, x4, okD, injD⟩ := Bufs.full_spec junk H3 (2 ^ L) pkt
    have hl1 := x1.le; have hl2 := x2.le; have hl3 := ext.le; have hl4 := x4.le
    have hM4 : C.Mem pkt z H4 := by
      refine ⟨hM.okP.ext x4, hM.okM.ext x4, by have := hM.zlt; omega, ?_⟩
      rw [x4.same _ hM.zlt]; exact hM.zv
    have hplt : ∀ i, i < C.ptrs.size → gt C.ptrs i < H3.size ∧ (gt C.ptrs i < H1.size ∨ H2.size ≤ gt C.ptrs i) := by
      intro i hi
      rcases hpt i hi with ⟨j, hj, he⟩ | ⟨h1, h2⟩
      · rw [he, gI j hj]; omega
      · omega
    refine ⟨H4, ⟨⟨B, bd, bd.fth Rr pkt, bd.fth R2 pkt, ⟨Dw, 2 ^ L, pkt⟩⟩, ⟨Iw, k, pkt⟩, ⟨Sw, 2 ^ L - k - m, pkt⟩, C⟩, ?_, hsys, hws, hpkt, eB,
      ((x1.trans x2).trans ext).trans x4, S, 2 ^ L, 2 ^ L2, g2, okLen, _, _,
      ⟨gd, fs.neg1, hbd, hops, by rw [hpkt]; exact hFft, by rw [hpkt]; exact hFft2, hok, hok2⟩, le_rfl, fun _ => ⟨z, ?_⟩⟩
    · unfold mk'
      rw [eB, ok_bind, ec, ok_bind, len', ok_bind, hn, eR, ok_bind, eR2, ok_bind, if_pos rfl, hno]
      simp only [e1]
      rw [e2]
      simp only
      rw [eC, ok_bind]
      simp only
      rw [e4]
      rfl
    · refine {
        zlt := by have := hM.zlt; omega
        shape := by rw [hpkt]; exact hC
        mem := by rw [hpkt]; exact hM4
        vec := hv ()
        plt := fun i hi => lt_of_lt_of_le (hplt i hi).1 hl4
        ssz := sS
        ssize := hpkt.symm
        sinj := injS
        sok := by rw [hpkt]; exact (okS.ext ext).ext x4
        slt := fun i hi => by
          change gt Sw i < _
          change i < Sw.size at hi
          rw [gS i (by omega)]; omega
        sdis := fun i j hi hj he => by
          change i < Sw.size at hi
          change gt Sw i = _ at he
          rw [gS i (by omega)] at he
          have := (hplt j hj).2; simp only at he; omega
        sz := fun i hi he => by
          change i < Sw.size at hi
          change gt Sw i = _ at he
          rw [gS i (by omega)] at he; omega
        dn := rfl
        dsz := sD
        dinj := injD
        dok := by rw [hpkt]; exact okD
        dlt := fun i hi => by
          change gt Dw i < _
          change i < Dw.size at hi
          rw [gD i (by omega)]; omega
        ddis := fun i j hi hj he => by
          change i < Dw.size at hi
          change gt Dw i = _ at he
          rw [gD i (by omega)] at he
          have := (hplt j hj).1; simp only at he; omega
        dds := fun i j hi hj he => by
          change i < Dw.size at hi
          change j < Sw.size at hj
          change gt Dw i = gt Sw j at he
          rw [gD i (by omega), gS j (by omega)] at he; omega
        dz := fun i hi he => by
          change i < Dw.size at hi
          change gt Dw i = _ at he
          rw [gD i (by omega)] at he
          have := hM.zlt; omega }
  · have hsf : sys = false := by simpa using hs
    subst hsf
    refine ⟨H, ⟨⟨B, bd, bd.fth Rr pkt, bd.fth R2 pkt, default⟩, default, default, default⟩, ?_, hsys, hws, hpkt, eB, Ext.refl H,
      S, 2 ^ L, 2 ^ L2, g2, okLen, _, _, ⟨gd, fs.neg1, hbd, hops, by rw [hpkt]; exact hFft, by rw [hpkt]; exact hFft2, hok, hok2⟩, le_rfl,
      fun h => ?_⟩
    · unfold mk'
      rw [eB, ok_bind, ec, ok_bind, len', ok_bind, hn, eR, ok_bind, eR2, ok_bind]
      rfl
    · change B.sys = true at h
      rw [hsys] at h; cases h

end RsFntObj
end
end Quad
