import Verif.Props.BinExt
import Verif.Props.Buffers
import Verif.Model.Simd

/-!
# Operations on buffers over the fields of `2^n` elements and over other moduli (C13)

`binWord n a`, `binModulus n` and `IsBinExt` are those of C14.  `IsProd n m a c` says that
`m` is the product of `a` and `c` in the field of `2^n` elements.  In these theorems the functions
are those of the portable build; the last one is about the vectorised build
(see also `C12_other_modulus_wrong`).
-/

namespace Quad.Props
open Quad Quad.Spec Quad.BinExt Polynomial

/-- `m` is the product of `a` and `c` in the field of `2^n` elements -/
def IsProd (n m a c : Nat) : Prop := m < 2 ^ n ∧ binWord n m = (binWord n a * binWord n c) %ₘ binModulus n

theorem gf_mul_prod {O : Obj} {b n : Nat} (h : IsBinExt O b n) {a c : Nat} (ha : a < 2 ^ n) (hc : c < 2 ^ n) :
    IsProd n (O.gf.mul a c) a c := by
  obtain ⟨m, e, h1, h2⟩ := C14_mul h ha hc
  have : O.gf.mul a c = m := by
    show (O.F.mulR a c).toOption.getD 0 = m
    rw [e]; rfl
  rw [this]
  exact ⟨h1, h2⟩

theorem gf_cardM1 {O : Obj} {b n : Nat} (h : IsBinExt O b n) : O.gf.cardM1 = 2 ^ n - 1 := by
  haveI := h.fact
  exact h.isBinField.2.good.cardM1_eq

theorem two_pow_gt {O : Obj} {b n : Nat} (h : IsBinExt O b n) : 1 < 2 ^ n := by
  haveI := h.fact
  exact h.isBinField.2.good.H.two_pow_pos

theorem isProd_unique {n m m' a c : Nat} (h : n ∈ [1, 2, 3, 4, 8, 16, 32, 64, 128]) (h1 : IsProd n m a c) (h2 : IsProd n m' a c) : m = m' := by
  have hs := size_of h
  haveI := fact_of hs
  have e : binWord n m = binWord n m' := h1.2.trans h2.2.symm
  refine (binField_of hs).inj h1.1 h2.1 ?_
  rw [root_eq_mk h1.1, root_eq_mk h2.1, e]

/-- the product by one and by zero -/
theorem isProd_one {O : Obj} {b n : Nat} (h : IsBinExt O b n) {x : Nat} (hx : x < 2 ^ n) : IsProd n x 1 x := by
  haveI := h.fact
  have B := h.isBinField.2
  have h1 := two_pow_gt h
  refine ⟨hx, mod_of_root (size_of h.ok.size) hx ?_⟩
  rw [map_mul, ← root_eq_mk h1, ← root_eq_mk hx, bev_one, one_mul]

theorem isProd_zero {O : Obj} {b n : Nat} (h : IsBinExt O b n) {x : Nat} : IsProd n 0 0 x := by
  have h1 := two_pow_gt h
  refine ⟨by omega, ?_⟩
  have : binWord n 0 = 0 := by unfold binWord; simp
  rw [this, zero_mul, zero_modByMonic]

section
variable {O : Obj} {b n : Nat} {H : Heap} {len : Nat}

/-- C13 over `2^n` elements: `dest[i] = a * src[i]` for every `a` -/
theorem C13_binary_mul_coef_to_buf (h : IsBinExt O b n) {a src dest : Nat} (hs : src < H.size) (hd : dest < H.size)
    (h1 : (gt H src).size = len) (h2 : (gt H dest).size = len) (ha : a < 2 ^ n) (hv : ∀ c, c < len → el H src c < 2 ^ n) :
    ∃ H', BufOps.mul_coef_to_buf O.gf a src dest len H = .ok H' ∧ OnlyAt dest H H' ∧ (gt H' dest).size = len ∧
      ∀ c, c < len → IsProd n (el H' dest c) a (el H src c) := by
  obtain ⟨H', e, o, s, g⟩ := mul_coef_to_buf_el O.gf (a := a) hs hd h1 h2
  exact ⟨H', e, o, s, fun c hc => by rw [g c hc]; exact gf_mul_prod h ha (hv c hc)⟩

/-- C13 over `2^n` elements: `dest[i] += src[i]` -/
theorem C13_binary_add_two_bufs (O : Obj) {src dest : Nat} (hs : src < H.size) (hd : dest < H.size)
    (h1 : (gt H src).size = len) (h2 : (gt H dest).size = len) :
    ∃ H', BufOps.add_two_bufs O.gf src dest len H = .ok H' ∧ OnlyAt dest H H' ∧ (gt H' dest).size = len ∧
      ∀ c, c < len → el H' dest c = el H src c ^^^ el H dest c :=
  add_two_bufs_el O.gf hs hd h1 h2

/-- C13 over `2^n` elements: `res[i] = a[i] - b[i]` -/
theorem C13_binary_sub_two_bufs (O : Obj) {x y res : Nat} (ha : x < H.size) (hb : y < H.size) (hr : res < H.size)
    (h1 : (gt H x).size = len) (h2 : (gt H y).size = len) (h3 : (gt H res).size = len) :
    ∃ H', BufOps.sub_two_bufs O.gf x y res len H = .ok H' ∧ OnlyAt res H H' ∧ (gt H' res).size = len ∧
      ∀ c, c < len → el H' res c = el H x c ^^^ el H y c :=
  sub_two_bufs_el O.gf ha hb hr h1 h2 h3

/-- C13 over `2^n` elements: `x[i] *= y[i]` -/
theorem C13_binary_hadamard_mul (h : IsBinExt O b n) {x y : Nat} (hx : x < H.size) (hy : y < H.size)
    (h1 : (gt H x).size = len) (h2 : (gt H y).size = len) (hv : ∀ c, c < len → el H x c < 2 ^ n ∧ el H y c < 2 ^ n) :
    ∃ H', BufOps.hadamard_mul O.gf len x y H = .ok H' ∧ OnlyAt x H H' ∧ (gt H' x).size = len ∧
      ∀ c, c < len → IsProd n (el H' x c) (el H x c) (el H y c) := by
  obtain ⟨H', e, o, s, g⟩ := hadamard_mul_el O.gf hx hy h1 h2
  exact ⟨H', e, o, s, fun c hc => by rw [g c hc]; exact gf_mul_prod h (hv c hc).1 (hv c hc).2⟩

/-- C13 over `2^n` elements: negation leaves every element, which is its own opposite -/
theorem C13_binary_neg (O : Obj) {B : Bufs} (hn : B.n = B.mem.size) (hinj : InjPtr B.mem) (hd : Okb B.size H B.mem) :
    ∃ H', BufOps.negBufs O.gf B H = .ok H' ∧ Frame B.mem H H' ∧ Okb B.size H' B.mem ∧
      ∀ i, i < B.n → ∀ c, c < B.size → el H' (gt B.mem i) c = el H (gt B.mem i) c := by
  obtain ⟨H', e, o, s, g⟩ := negBufs_el O.gf hn rfl hinj hd
  exact ⟨H', e, o, s, fun i hi c hc => by rw [g i hi c hc]; exact Nat.zero_xor _⟩

theorem binary_mul_vec (h : IsBinExt O b n) {u : Array Nat} {src dest : Bufs} (hu : u.size = src.n)
    (hss : src.mem.size = src.n) (hds : dest.mem.size = src.n) (hlen : dest.size = src.size)
    (hinj : InjPtr dest.mem) (hal : ∀ i j, i < src.n → j < i → gt src.mem i ≠ gt dest.mem j)
    (hs : Okb src.size H src.mem) (hd : Okb src.size H dest.mem) (hc : ∀ i, i < src.n → gt u i < 2 ^ n)
    (hv : ∀ i c, i < src.n → c < src.size → el H (gt src.mem i) c < 2 ^ n) :
    ∃ H', BufOps.mul_vec_to_vecp O.gf u src dest H = .ok H' ∧ Frame dest.mem H H' ∧ Okb dest.size H' dest.mem ∧
      ∀ i, i < src.n → ∀ c, c < src.size →
        (gt u i + 1 ≠ 2 ^ n ∨ n = 1 → IsProd n (el H' (gt dest.mem i) c) (gt u i) (el H (gt src.mem i) c)) ∧
        (gt u i + 1 = 2 ^ n → el H' (gt dest.mem i) c = el H (gt src.mem i) c) := by
  have h1 := two_pow_gt h
  obtain ⟨H', e, o, s, g, _⟩ := mul_vec_to_vecp_el O.gf (u := u) (len := src.size) hu (by omega) (by omega) rfl hinj
    (by rw [hu]; exact hal) (fun i hi => by have := hc i (by omega); rw [gf_cardM1 h]; omega) hs hd
  refine ⟨H', e, o, by rw [hlen]; exact s, fun i hi c hc' => ?_⟩
  have hx := hv i c hi hc'
  have hci := hc i hi
  rw [g i (by omega) c hc', gf_cardM1 h]
  refine ⟨fun hne => ?_, fun he => ?_⟩
  · split
    · rename_i e1; rw [e1]; exact isProd_one h hx
    split
    · rename_i e1; rw [e1]; exact isProd_zero h
    split
    · rename_i n1 n0 e1
      rcases hne with hne | hne
      · omega
      · subst hne; omega
    · exact gf_mul_prod h hci hx
  · split
    · rfl
    split
    · omega
    rw [if_pos (by omega)]
    exact Nat.zero_xor _

/-- C13 over `2^n` elements: `dest[i] = u[i] * src[i]` for every coefficient but the
all-ones word `2^n - 1` (which in the field of two elements is 1, and is handled).
Missing: that coefficient, for which the claim is false
(`C13_binary_all_ones_coefficient_wrong`). -/
theorem C13_binary_mul_vec_to_vecp_partial (h : IsBinExt O b n) {u : Array Nat} {src dest : Bufs} (hu : u.size = src.n)
    (hss : src.mem.size = src.n) (hds : dest.mem.size = src.n) (hlen : dest.size = src.size)
    (hinj : InjPtr dest.mem) (hal : ∀ i j, i < src.n → j < i → gt src.mem i ≠ gt dest.mem j)
    (hs : Okb src.size H src.mem) (hd : Okb src.size H dest.mem) (hc : ∀ i, i < src.n → gt u i < 2 ^ n)
    (hv : ∀ i c, i < src.n → c < src.size → el H (gt src.mem i) c < 2 ^ n) :
    ∃ H', BufOps.mul_vec_to_vecp O.gf u src dest H = .ok H' ∧ Frame dest.mem H H' ∧ Okb dest.size H' dest.mem ∧
      ∀ i, i < src.n → gt u i + 1 ≠ 2 ^ n ∨ n = 1 → ∀ c, c < src.size →
        IsProd n (el H' (gt dest.mem i) c) (gt u i) (el H (gt src.mem i) c) := by
  obtain ⟨H', e, f, o, g⟩ := binary_mul_vec h hu hss hds hlen hinj hal hs hd hc hv
  exact ⟨H', e, f, o, fun i hi hne c hc => (g i hi c hc).1 hne⟩

/-- C13 fails over `2^n` elements, `n ≥ 2`: a coefficient `2^n - 1` is taken for -1, which
over these fields is 1, so the buffer is copied unchanged.  This is not the product,
at any element that is not zero. -/
theorem C13_binary_all_ones_coefficient_wrong (h : IsBinExt O b n) (hn : 2 ≤ n) {u : Array Nat} {src dest : Bufs} (hu : u.size = src.n)
    (hss : src.mem.size = src.n) (hds : dest.mem.size = src.n) (hlen : dest.size = src.size)
    (hinj : InjPtr dest.mem) (hal : ∀ i j, i < src.n → j < i → gt src.mem i ≠ gt dest.mem j)
    (hs : Okb src.size H src.mem) (hd : Okb src.size H dest.mem) (hc : ∀ i, i < src.n → gt u i < 2 ^ n)
    (hv : ∀ i c, i < src.n → c < src.size → el H (gt src.mem i) c < 2 ^ n) :
    ∃ H', BufOps.mul_vec_to_vecp O.gf u src dest H = .ok H' ∧
      ∀ i, i < src.n → gt u i = 2 ^ n - 1 → ∀ c, c < src.size → el H' (gt dest.mem i) c = el H (gt src.mem i) c ∧
        (el H (gt src.mem i) c ≠ 0 → ¬ IsProd n (el H' (gt dest.mem i) c) (gt u i) (el H (gt src.mem i) c)) := by
  obtain ⟨H', e, f, o, g⟩ := binary_mul_vec h hu hss hds hlen hinj hal hs hd hc hv
  have h1 := two_pow_gt h
  refine ⟨H', e, fun i hi he c hc' => ⟨(g i hi c hc').2 (by omega), fun h0 hp => ?_⟩⟩
  have hx := hv i c hi hc'
  rw [(g i hi c hc').2 (by omega)] at hp
  haveI := h.fact
  have B := h.isBinField.2
  have h4 : 2 ^ 2 ≤ 2 ^ n := Nat.pow_le_pow_right (by omega) hn
  have hci := hc i hi
  have e2 : O.gf.mul (gt u i) (el H (gt src.mem i) c) = el H (gt src.mem i) c :=
    isProd_unique h.ok.size (gf_mul_prod h hci hx) hp
  have e3 := (B.good.mul_spec hci hx).2.2
  rw [show O.F.mul (gt u i) (el H (gt src.mem i) c) = el H (gt src.mem i) c from e2] at e3
  have e4 : bev (binR n) (gt u i) = bev (binR n) 1 := by
    rw [bev_one]
    exact (mul_eq_right₀ (B.good.H.ne_zero h0 hx)).1 e3.symm
  have := B.good.H.inj hci h1 e4
  omega

end

/-! ## the vectorised build -/

/-- C13 fails in the vectorised build over `2^n` elements, on words of 32 and of 16 bits: the operations on buffers of
`RingModN<uint32_t>` and `RingModN<uint16_t>` (src/gf_ring.cpp), which these fields inherit, add
modulo 65537 or 257 instead of taking the exclusive or.  Witness: `3 + 5` is 8 and not 6, whatever
the number `card` of elements, when whole registers are added. -/
theorem C13_vectorised_binary_wrong {R w card : Nat} (hR : R = 16 ∨ R = 32) (hw : w = 2 ∨ w = 4) :
    Simd.add_two_bufs R w card 0 1 (R / w) #[Array.replicate (R / w) 3, Array.replicate (R / w) 5] =
      .ok #[Array.replicate (R / w) 3, Array.replicate (R / w) 8] ∧ 3 ^^^ 5 ≠ 8 := by
  refine ⟨?_, by decide⟩
  have key : ∀ R ∈ [16, 32], ∀ w ∈ [2, 4], (do
      let H : Heap := #[Array.replicate (R / w) 3, Array.replicate (R / w) 5]
      let x ← Simd.loadReg R w H 0 0
      let y ← Simd.loadReg R w H 1 0
      Simd.storeReg R w H 1 0 (Simd.mod_add w x y)) = Except.ok #[Array.replicate (R / w) 3, Array.replicate (R / w) 8] ∧
      R / w / (R / w) = 1 := by decide +kernel
  obtain ⟨k1, k2⟩ := key R (by rcases hR with h | h <;> simp [h]) w (by rcases hw with h | h <;> simp [h])
  unfold Simd.add_two_bufs
  simp only [show Simd.ratio R w = R / w from rfl, k2, forN, ok_bind, one_mul]
  rw [k1, ok_bind, forStep, show stride (R / w) (R / w) 1 = 0 by simp [stride]]
  rfl

/-! ## the hypotheses are met -/

/-- the field of 256 elements on 32 bits exists, whatever memory held -/
example : BinSupported 32 8 := ⟨by decide, by decide, by decide, by decide⟩

/-- two buffers of two elements, the first coefficient is the all-ones word and the second another one -/
example : InjPtr #[0, 1] ∧ (∀ i j, i < 2 → j < i → gt #[0, 1] i ≠ gt #[0, 1] j) ∧
    (∀ i, i < 2 → gt #[255, 7] i < 2 ^ 8) ∧ gt #[255, 7] 0 = 2 ^ 8 - 1 ∧ gt #[255, 7] 1 + 1 ≠ 2 ^ 8 ∧
    Okb 2 #[#[5, 0], #[255, 1]] #[0, 1] ∧ el #[#[5, 0], #[255, 1]] 0 0 ≠ 0 := by
  refine ⟨?_, ?_, ?_, by decide, by decide, ?_, by decide⟩
  · intro i j hi hj
    have hi' : i < 2 := hi
    have hj' : j < 2 := hj
    interval_cases i <;> interval_cases j <;> decide
  · intro i j hi hj
    interval_cases i <;> interval_cases j <;> decide
  · intro i hi
    interval_cases i <;> decide
  · intro i hi
    have hi' : i < 2 := hi
    interval_cases i <;> decide

end Quad.Props
