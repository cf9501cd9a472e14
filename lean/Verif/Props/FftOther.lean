import Verif.Lemmas.FftBuf
import Verif.Props.Ring
import Verif.Props.BinExt

/-!
# Properties of the other transforms (C20)

`FieldObj F b q`: `F` is a prime field or binary extension field object of the library, with `q`
elements, over words of `b` bits.  `dftVec F w x` is the transform of `x` by its definition.
`mem` is what uninitialised memory holds; `out`, `out'` are the output vectors, whose contents do
not matter.  The bounds `(n - 1)² < 2^31` keep the `int` products of the naive transform in range.
-/

namespace Quad.Props
open Quad Quad.Spec Finset

variable {F : GF} {b q : Nat}

/-! ## Cooley-Tukey -/

/-- C20: Cooley-Tukey of any length `n ≥ 2` dividing `q - 1`: `fft` is the transform for a root
of order exactly `n`, and `ifft` undoes it. -/
theorem C20_cooley_tukey (h : FieldObj F b q) {n : Nat} (h2 : 2 ≤ n) (hn : n ∣ q - 1) (hlt : n < 2 ^ 31)
    (hsq : ∀ p, p.Prime → p ∣ n → (p - 1) * (p - 1) < 2 ^ 31) (mem : Nat → Nat) :
    ∃ T w, CooleyTukey.mk' F b n mem = .ok T ∧ T.n = n ∧ F.nthRoot n = .ok w ∧ w < q ∧ HasOrder F w n ∧
      ∀ out out' x, out.size = n → out'.size = n → IsVec q n x →
        T.fft out x = .ok (dftVec F w x) ∧ IsVec q n (dftVec F w x) ∧ T.ifft out' (dftVec F w x) = .ok x := by
  obtain ⟨K, _, S, D⟩ := h.dft
  haveI := h.plain
  obtain ⟨T, v, w, e, ev, ew, w1, w2, hT, hTn, hi⟩ := ct_ft D mem h2 hn hlt hsq
  refine ⟨T, w, e, hTn, ew, (D.val _).1 w1, hasOrder_of D w1 w2, fun out out' x ho ho' hx => ?_⟩
  obtain ⟨e1, e2⟩ := hT.fft.eq_dftVec D w1 ho hx
  refine ⟨e1, e2, ?_⟩
  obtain ⟨y, ey, hy⟩ := ifft_fft D hn w2 ev hT.fft hT.fft_inv ho ho' hx.1 (fun j hj => (D.val _).2 (hx.2 j hj))
  rw [e1] at ey
  rw [Except.ok.inj ey, hi]
  exact hy

/-- the hypotheses hold for the length 65535 over GF(2^16), with factors 3, 5, 17 and 257 -/
example {O : BinExt.Obj} (h : IsBinExt O 32 16) :
    FieldObj O.gf 32 (2 ^ 16) ∧ 2 ≤ 65535 ∧ 65535 ∣ 2 ^ 16 - 1 ∧ ∀ p, p.Prime → p ∣ 65535 → (p - 1) * (p - 1) < 2 ^ 31 := by
  refine ⟨.bin h, by decide, by decide, fun p hp hd => ?_⟩
  have h1 : p ∣ 3 * 5 * 17 * 257 := by simpa using hd
  have h3 : p ≤ 257 := by
    rcases (hp.dvd_mul).1 h1 with h1 | h1
    · rcases (hp.dvd_mul).1 h1 with h1 | h1
      · rcases (hp.dvd_mul).1 h1 with h1 | h1 <;> have := Nat.le_of_dvd (by decide) h1 <;> omega
      · have := Nat.le_of_dvd (by decide) h1; omega
    · exact Nat.le_of_dvd (by decide) h1
  calc (p - 1) * (p - 1) ≤ 256 * 256 := Nat.mul_le_mul (by omega) (by omega)
    _ < 2 ^ 31 := by norm_num

example : FieldObj O65537.gf 32 65537 := .prime isPrimeField65537

/-! ## Good-Thomas -/

/-- C20: Good-Thomas of any length `n ≥ 2` dividing `q - 1`; the index products `n * n` and
`n * (n1 + 1)`, where `n1` is the first coprime factor, must fit the word type and an `int`. -/
theorem C20_good_thomas (h : FieldObj F b q) {n : Nat} (h2 : 2 ≤ n) (hn : n ∣ q - 1)
    (hsq : ∀ p e, p.Prime → p ^ e ∣ n → (p ^ e - 1) * (p ^ e - 1) < 2 ^ 31)
    (hlt : n * (n.minFac ^ n.factorization n.minFac + 1) ≤ 2 ^ 31) (hT : n * n ≤ 2 ^ b) (mem : Nat → Nat) :
    ∃ T w, GoodThomas.mk' F b n mem = .ok T ∧ T.n = n ∧ F.nthRoot n = .ok w ∧ w < q ∧ HasOrder F w n ∧
      ∀ out out' x, out.size = n → out'.size = n → IsVec q n x →
        T.fft out x = .ok (dftVec F w x) ∧ IsVec q n (dftVec F w x) ∧ T.ifft out' (dftVec F w x) = .ok x := by
  obtain ⟨K, _, S, D⟩ := h.dft
  haveI := h.plain
  obtain ⟨T, v, w, e, ev, ew, w1, w2, hT, hTn, hi⟩ := gt_ft D mem h2 hn hsq hlt hT
  refine ⟨T, w, e, hTn, ew, (D.val _).1 w1, hasOrder_of D w1 w2, fun out out' x ho ho' hx => ?_⟩
  obtain ⟨e1, e2⟩ := hT.fft.eq_dftVec D w1 ho hx
  refine ⟨e1, e2, ?_⟩
  obtain ⟨y, ey, hy⟩ := ifft_fft D hn w2 ev hT.fft hT.fft_inv ho ho' hx.1 (fun j hj => (D.val _).2 (hx.2 j hj))
  rw [e1] at ey
  rw [Except.ok.inj ey, hi]
  exact hy

/-- the hypotheses hold for the length 15 = 3 * 5 over GF(16) -/
example {O : BinExt.Obj} (h : IsBinExt O 8 4) :
    FieldObj O.gf 8 (2 ^ 4) ∧ 2 ≤ 15 ∧ 15 ∣ 2 ^ 4 - 1 ∧ (∀ p e, p.Prime → p ^ e ∣ 15 → (p ^ e - 1) * (p ^ e - 1) < 2 ^ 31) ∧
      15 * (Nat.minFac 15 ^ Nat.factorization 15 (Nat.minFac 15) + 1) ≤ 2 ^ 31 ∧ 15 * 15 ≤ 2 ^ 8 := by
  refine ⟨.bin h, by decide, by decide, fun p e _ hd => ?_, ?_, by decide⟩
  · have := Nat.le_of_dvd (by decide) hd
    calc (p ^ e - 1) * (p ^ e - 1) ≤ 14 * 14 := Nat.mul_le_mul (by omega) (by omega)
      _ < 2 ^ 31 := by norm_num
  · have h1 : Nat.minFac 15 ^ Nat.factorization 15 (Nat.minFac 15) ≤ 15 := Nat.le_of_dvd (by decide) (Nat.ordProj_dvd _ _)
    omega

/-! ## Naive -/

/-- C20: the naive transform for any `w` of order `n`, on vectors. -/
theorem C20_naive (h : FieldObj F b q) {n w pkt : Nat} (hn : n ∣ q - 1) (hsq : (n - 1) * (n - 1) < 2 ^ 31) (hw : w < q)
    (hord : HasOrder F w n) (mem : Nat → Nat) :
    ∃ T, Naive.mk' F n w pkt mem = .ok T ∧ T.n = n ∧
      ∀ out out' x, out.size = n → out'.size = n → IsVec q n x →
        T.fft out x = .ok (dftVec F w x) ∧ IsVec q n (dftVec F w x) ∧ T.ifft out' (dftVec F w x) = .ok x := by
  obtain ⟨K, _, S, D⟩ := h.dft
  haveI := h.plain
  have w1 := (D.val w).2 hw
  have w2 := primitive_of D w1 (D.dvd_pos hn) hord
  obtain ⟨v, W, W', e, ev, hT, _⟩ := naive_built D (pkt := pkt) hn hsq w1 w2.pow_eq_one mem
  refine ⟨_, e, rfl, fun out out' x ho ho' hx => ?_⟩
  obtain ⟨e1, e2⟩ := hT.fft.eq_dftVec D w1 ho hx
  refine ⟨e1, e2, ?_⟩
  obtain ⟨y, ey, hy⟩ := ifft_fft D hn w2 ev hT.fft hT.fft_inv ho ho' hx.1 (fun j hj => (D.val _).2 (hx.2 j hj))
  rw [e1] at ey
  rw [Except.ok.inj ey]
  exact hy

/-- C20: the naive transform on packets computes the transform of every column. -/
theorem C20_naive_buffers (h : FieldObj F b q) {n w pkt : Nat} (hn : n ∣ q - 1) (hsq : (n - 1) * (n - 1) < 2 ^ 31) (hw : w < q)
    (hord : HasOrder F w n) (mem : Nat → Nat) :
    ∃ T, Naive.mk' F n w pkt mem = .ok T ∧
      ∀ out x, IsPkts (2 ^ b) n pkt out → IsPkts q n pkt x →
        ∃ y, T.fftB out x = .ok y ∧ IsPkts q n pkt y ∧ ∀ c, c < pkt → col y c = dftVec F w (col x c) := by
  obtain ⟨K, _, S, D⟩ := h.dft
  haveI := h.plain
  have w1 := (D.val w).2 hw
  have w2 := primitive_of D w1 (D.dvd_pos hn) hord
  obtain ⟨v, W, W', e, ev, _, hT, _⟩ := naive_built D (pkt := pkt) hn hsq w1 w2.pow_eq_one mem
  exact ⟨_, e, fun out x ho hx => hT.eq_dftVec D w1 (IsPkts.shape ho) hx⟩

/-- C20: over a prime field the packet `ifft` undoes the packet `fft`.  Missing: the binary
extension fields, see `C20_naive_buffer_ifft_wrong`. -/
theorem C20_naive_buffer_ifft_partial {O : RingModN.Obj} {p : Nat} (H : RingModN.IsPrimeField O p) {n w pkt : Nat} (hn : n ∣ p - 1)
    (hsq : (n - 1) * (n - 1) < 2 ^ 31) (hw : w < p) (hord : HasOrder O.gf w n) (mem : Nat → Nat) :
    ∃ T, Naive.mk' O.gf n w pkt mem = .ok T ∧
      ∀ out out' x, IsPkts (2 ^ O.ring.b) n pkt out → IsPkts (2 ^ O.ring.b) n pkt out' → IsPkts p n pkt x →
        ∃ y, T.fftB out x = .ok y ∧ T.ifftB out' y = .ok x := by
  haveI := Fact.mk H.prime
  have D := primeDft H
  have h2 := H.prime.two_le
  have w1 := (D.val w).2 hw
  have w2 := primitive_of D w1 (D.dvd_pos hn) hord
  obtain ⟨v, W, W', e, ev, _, hT, hT'⟩ := naive_built D (pkt := pkt) hn hsq w1 w2.pow_eq_one mem
  refine ⟨_, e, fun out out' x ho ho' hx => ?_⟩
  have hlt : n < p := by have := Nat.le_of_dvd (by omega) hn; omega
  have hn0 := D.dvd_pos hn
  obtain ⟨v', ev', v1, v2⟩ := H.invN_spec hn0 hlt
  rw [ev] at ev'
  obtain rfl := Except.ok.inj ev'
  have hne : (n : ZMod p) ≠ 0 := by
    intro hz
    rw [ZMod.natCast_eq_zero_iff] at hz
    have := Nat.le_of_dvd hn0 hz
    omega
  obtain ⟨y, ey, hy, _⟩ := ifft_fftB D H.neg1 hn w2 (v := v) v1 (by
      show ((v : Nat) : ZMod p) * _ = 1
      rw [v2, inv_mul_cancel₀ hne]) hT hT' (IsPkts.shape ho) (IsPkts.shape ho') (IsPkts.shape hx)
    (fun j hj u hu => (hx.2 j hj).2 u hu)
  exact ⟨y, ey, hy⟩

/-- the field GF(4) in bytes, as the library builds it -/
def gf4 : Res BinExt.Obj := BinExt.mk' 8 2 (fun _ _ => 0) (fun _ _ _ => 0) >>= BinExt.init

/-- Over GF(4) the packet `ifft` of length 3 returns zeros whatever the input: it scales by
`inv(3) mod 2 = 0`. -/
theorem C20_naive_buffer_ifft_wrong : ∃ O T y, gf4 = .ok O ∧ IsBinExt O 8 2 ∧ HasOrder O.gf 2 3 ∧
    Naive.mk' O.gf 3 2 1 (fun _ => 0) = .ok T ∧ T.fftB #[#[0], #[0], #[0]] #[#[1], #[2], #[3]] = .ok y ∧
    T.ifftB #[#[0], #[0], #[0]] y = .ok #[#[0], #[0], #[0]] := by
  have h : (do
      let O ← gf4
      let T ← Naive.mk' O.gf 3 2 1 (fun _ => 0)
      let y ← T.fftB #[#[0], #[0], #[0]] #[#[1], #[2], #[3]]
      let z ← T.ifftB #[#[0], #[0], #[0]] y
      pure (decide (z = #[#[0], #[0], #[0]] ∧ O.gf.exp 2 3 = 1 ∧ O.gf.exp 2 1 ≠ 1 ∧ O.gf.exp 2 2 ≠ 1)) : Res Bool) = .ok true := by
    decide +kernel
  have hs : BinSupported 8 2 := ⟨by decide, by decide, by decide, by decide⟩
  obtain ⟨O, e, hO⟩ := C14_create_partial hs (fun _ _ => 0) (fun _ _ _ => 0)
  have e' : gf4 = .ok O := e
  rw [e', ok_bind] at h
  cases hT : Naive.mk' O.gf 3 2 1 (fun _ => 0) with
  | error _ => rw [hT] at h; cases h
  | ok T =>
    rw [hT, ok_bind] at h
    cases hy : T.fftB #[#[0], #[0], #[0]] #[#[1], #[2], #[3]] with
    | error _ => rw [hy] at h; cases h
    | ok y =>
      rw [hy, ok_bind] at h
      cases hz : T.ifftB #[#[0], #[0], #[0]] y with
      | error _ => rw [hz] at h; cases h
      | ok z =>
        rw [hz, ok_bind] at h
        obtain ⟨h1, h2, h3, h4⟩ := of_decide_eq_true (Except.ok.inj h)
        refine ⟨O, T, y, e', hO, ⟨h2, fun j j0 j3 => ?_⟩, hT, hy, by rw [hz, h1]⟩
        obtain rfl | rfl : j = 1 ∨ j = 2 := by omega
        · exact h3
        · exact h4

theorem order64 : HasOrder O257.gf 64 8 := by
  have h : ∀ j, j < 8 → 0 < j → O257.gf.exp 64 j ≠ 1 := by decide +kernel
  exact ⟨by decide +kernel, fun j h0 h8 => h j h8 h0⟩

/-- the hypotheses hold for the root 3^32 of order 8 in the field of 257 elements -/
example : RingModN.IsPrimeField O257 257 ∧ 8 ∣ 257 - 1 ∧ (8 - 1) * (8 - 1) < 2 ^ 31 ∧ 64 < 257 ∧ HasOrder O257.gf 64 8 :=
  ⟨isPrimeField257, by decide, by decide, by decide, order64⟩

/-! ## Size2 -/

/-- C20: the transform of length 2, on vectors and on packets (a field of odd characteristic). -/
theorem C20_size2 {O : RingModN.Obj} {p : Nat} (H : RingModN.IsPrimeField O p) (hp : p ≠ 2) :
    ∃ T w, Size2.mk' O.gf = .ok T ∧ O.gf.nthRoot 2 = .ok w ∧ HasOrder O.gf w 2 ∧
      (∀ out out' x, out.size = 2 → out'.size = 2 → IsVec p 2 x →
        T.fft out x = .ok (dftVec O.gf w x) ∧ T.ifft out' (dftVec O.gf w x) = .ok x) ∧
      (∀ pkt out out' x, IsPkts (2 ^ O.ring.b) 2 pkt out → IsPkts (2 ^ O.ring.b) 2 pkt out' → IsPkts p 2 pkt x →
        ∃ y, T.fftB out x = .ok y ∧ (∀ c, c < pkt → col y c = dftVec O.gf w (col x c)) ∧ T.ifftB out' y = .ok x) := by
  haveI := Fact.mk H.prime
  have D := primeDft H
  have hodd : p % 2 = 1 := H.prime.eq_two_or_odd.resolve_left hp
  have h2 := H.prime.two_le
  have hn : 2 ∣ p - 1 := by omega
  obtain ⟨w, ew, w1, w2⟩ := D.root 2 hn
  have hm1 := neg_one_of_primitive w2
  obtain ⟨v, ev, v1, v2⟩ := H.invN_spec (n := 2) (by omega) (by omega)
  have hne : ((2 : Nat) : ZMod p) ≠ 0 := by
    intro hz
    rw [ZMod.natCast_eq_zero_iff] at hz
    have := Nat.le_of_dvd (by omega) hz
    omega
  have hinv : (H.sim.φ w)⁻¹ = H.sim.φ w := by rw [hm1, inv_neg, inv_one]
  have ds : IsDft H.sim (Size2.fft O.gf) 2 (H.sim.φ w) := size2_dft hm1
  have db : ∀ pkt, IsDftB H.sim (Size2.fftB O.gf) 2 pkt (H.sim.φ w) := fun pkt => size2_dftB hm1 pkt
  refine ⟨_, w, by unfold Size2.mk'; rw [ev, ok_bind]; rfl, ew, hasOrder_of D w1 w2, fun out out' x ho ho' hx => ?_,
    fun pkt out out' x ho ho' hx => ?_⟩
  · obtain ⟨e1, e2⟩ := ds.eq_dftVec D w1 ho hx
    refine ⟨e1, ?_⟩
    obtain ⟨y, ey, hy⟩ := ifft_fft D hn w2 ev ds (by rw [hinv]; exact ds) ho ho' hx.1 (fun j hj => (D.val _).2 (hx.2 j hj))
    rw [e1] at ey
    rw [Except.ok.inj ey]
    exact hy
  · obtain ⟨y, ey, _, hy⟩ := (db pkt).eq_dftVec D w1 (IsPkts.shape ho) hx
    refine ⟨y, ey, hy, ?_⟩
    have hvn : H.sim.φ v * ((2 : Nat) : ZMod p) = 1 := by
      show ((v : Nat) : ZMod p) * _ = 1
      rw [v2, inv_mul_cancel₀ hne]
    obtain ⟨y', ey', h1, h3⟩ := ifft_fftB D H.neg1 hn w2 (v := v) v1 hvn (db pkt) (by rw [hinv]; exact db pkt)
      (IsPkts.shape ho) (IsPkts.shape ho') (IsPkts.shape hx) (fun j hj u hu => (hx.2 j hj).2 u hu)
    rw [ey] at ey'
    obtain rfl := Except.ok.inj ey'
    by_cases c : v > 1
    · simp only [if_pos c]
      exact h1
    · have hv1 : v = 1 := by
        rcases (show v = 0 ∨ v = 1 by omega) with r | r
        · subst r
          rw [Nat.cast_zero, eq_comm, inv_eq_zero] at v2
          exact absurd v2 hne
        · exact r
      simp only [if_neg c, h3 hv1]
      rfl

example : RingModN.IsPrimeField O257 257 ∧ 257 ≠ 2 := ⟨isPrimeField257, by decide⟩

/-! ## Single -/

/-- C20: on inputs whose entries after the first are zero, the single-value transform is the
transform of length `n` for any root, and `ifft` undoes it. -/
theorem C20_single (h : FieldObj F b q) {n w : Nat} (h0 : 0 < n) (hn : n ∣ q - 1) (hw : w < q) :
    ∃ T, Single.mk' F n = .ok T ∧
      (∀ out out' x, out.size = n → out'.size = n → IsVec q n x → (∀ j, 0 < j → j < n → gt x j = 0) →
        T.fft out x = .ok (dftVec F w x) ∧ T.ifft out' (dftVec F w x) = .ok x) ∧
      (∀ pkt out out' x, IsPkts (2 ^ b) n pkt out → IsPkts (2 ^ b) n pkt out' → IsPkts q n pkt x →
        (∀ j, 0 < j → j < n → gt x j = Array.replicate pkt 0) →
        ∃ y, T.fftB out x = .ok y ∧ (∀ c, c < pkt → col y c = dftVec F w (col x c)) ∧ T.ifftB out' y = .ok x) := by
  obtain ⟨K, _, S, D⟩ := h.dft
  haveI := h.plain
  obtain ⟨v, ev, _⟩ := D.invN n hn
  have w1 := (D.val w).2 hw
  have hd : ∀ x : Array Nat, IsVec q n x → (∀ j, 0 < j → j < n → gt x j = 0) → dftVec F w x = Array.replicate n (gt x 0) := by
    intro x hx hz
    have hv : ∀ j, j < x.size → S.V (gt x j) := fun j hj => (D.val _).2 (hx.2 j (by rw [hx.1] at hj; exact hj))
    refine gt_ext (by simp [dftVec, hx.1]) fun i hi => ?_
    have hi' : i < x.size := by simpa [dftVec] using hi
    have hin : i < n := by rw [hx.1] at hi'; exact hi'
    unfold dftVec
    rw [gt_ofFn hi', gt_replicate hin]
    have d := dftAt_sem w1 hv i
    refine D.full.inj d.1 (hv 0 (by omega)) ?_
    rw [d.2, sum_eq_single 0]
    · simp
    · intro j hj hj0
      rw [hz j (by omega) (by have := mem_range.mp hj; rw [hx.1] at this; exact this), S.zero.2, mul_zero]
    · intro hj; exact absurd (mem_range.mpr (by omega)) hj
  refine ⟨_, by unfold Single.mk'; rw [ev, ok_bind]; rfl, fun out out' x ho ho' hx hz => ?_, fun pkt out out' x ho ho' hx hz => ?_⟩
  · rw [hd x hx hz]
    obtain ⟨r, e, r1, r2⟩ := forN_fill (n := out.size) (a := out) (fun _ => gt x 0) le_rfl
    obtain ⟨r', e', r1', r2'⟩ := forN_fill (n := out'.size) (a := out') (fun _ => 0) le_rfl
    refine ⟨?_, ?_⟩
    · show Single.fft out x = _
      unfold Single.fft
      rw [rd_gt (by rw [hx.1]; exact h0), ok_bind]
      simp only [e]
      congr 1
      refine gt_ext (by simp [r1, ho]) fun i hi => ?_
      rw [r2, if_pos (by omega), gt_replicate (by omega)]
    · show Single.ifft out' _ = _
      unfold Single.ifft
      simp only [e', ok_bind]
      rw [rd_gt (by simpa using h0), ok_bind, gt_replicate h0, wr_ok (by omega)]
      congr 1
      refine gt_ext (by simp [r1', ho', hx.1]) fun i hi => ?_
      have hi' : i < n := by simpa [r1', ho'] using hi
      rw [gt_set (by omega)]
      split
      · rename_i c; rw [c]
      · rw [r2', if_pos (by omega), hz i (by omega) hi']
  · obtain ⟨r, e, r1, r2⟩ := forN_fill (n := n) (a := out) (fun _ => gt x 0) (by rw [ho.1])
    have hrs : r.size = n := by rw [r1, ho.1]
    refine ⟨r, ?_, fun c hc => ?_, ?_⟩
    · show Single.fftB n out x = _
      unfold Single.fftB
      rw [rd_gt (by rw [hx.1]; exact h0), ok_bind]
      exact e
    · rw [hd (col x c)]
      · refine gt_ext (by rw [col_size, hrs]; simp) fun i hi => ?_
        rw [col_size, hrs] at hi
        rw [col_gt (by omega), gt_replicate hi, r2, if_pos hi, col_gt (by rw [hx.1]; exact h0)]
      · refine ⟨by rw [col_size, hx.1], fun j hj => ?_⟩
        rw [col_gt (by rw [hx.1]; exact hj)]
        exact (hx.2 j hj).2 c hc
      · intro j j0 hj
        rw [col_gt (by rw [hx.1]; exact hj), hz j j0 hj, gt_replicate hc]
    · show Single.ifftB out' r = _
      obtain ⟨z, ez, z1, z2⟩ := forN_inv (n := out'.size) (s := out')
        (f := fun i out => do
          let b ← rd out i
          wr out i (Array.replicate b.size 0))
        (I := fun k (z : Array (Array Nat)) => z.size = n ∧ ∀ j, j < n → gt z j = if j < k then Array.replicate pkt 0 else gt out' j)
        ⟨ho'.1, fun j _ => by simp⟩ (by
          rintro k z hk ⟨z1, z2⟩
          rw [ho'.1] at hk
          refine ⟨z.setIfInBounds k (Array.replicate pkt 0), ?_, by simp [z1], ?_⟩
          · rw [rd_gt (by omega), ok_bind, z2 k hk, if_neg (by omega), (ho'.2 k hk).1, wr_ok (by omega)]
          · intro j hj
            rw [gt_set (by omega)]
            by_cases c : j = k
            · rw [if_pos c, if_pos (by omega)]
            · rw [if_neg c, z2 j hj]
              by_cases d : j < k
              · rw [if_pos d, if_pos (by omega)]
              · rw [if_neg d, if_neg (by omega)])
      unfold Single.ifftB
      simp only [ez, ok_bind]
      rw [rd_gt (by omega), ok_bind, r2, if_pos h0, wr_ok (by omega)]
      congr 1
      refine gt_ext (by simp [z1, hx.1]) fun i hi => ?_
      have hi' : i < n := by simpa [z1] using hi
      rw [gt_set (by omega)]
      split
      · rename_i c; rw [c]
      · rw [z2 i hi', ho'.1, if_pos hi', hz i (by omega) hi']

example : FieldObj O257.gf O257.ring.b 257 ∧ 0 < 8 ∧ 8 ∣ 257 - 1 ∧ 64 < 257 ∧ IsVec 257 8 #[5, 0, 0, 0, 0, 0, 0, 0] :=
  ⟨.prime isPrimeField257, by decide, by decide, by decide, by unfold IsVec; decide⟩

/-! ## Large -/

/-- C20: the transform of `fft_large.h` over a prime field, for any root `w` of order `2^l`. -/
theorem C20_large {O : RingModN.Obj} {p : Nat} (H : RingModN.IsPrimeField O p) {l w : Nat} (hl : 2 ^ l ∣ p - 1) (hw : w < p)
    (hord : HasOrder O.gf w (2 ^ l)) (mem : Nat → Nat) :
    ∃ T, Large.mk' O.gf l w mem = .ok T ∧ T.n = 2 ^ l ∧
      ∀ out out' x, out.size = 2 ^ l → out'.size = 2 ^ l → IsVec p (2 ^ l) x →
        T.fft out x = .ok (dftVec O.gf w x) ∧ T.ifft out' (dftVec O.gf w x) = .ok x := by
  haveI := Fact.mk H.prime
  have D := primeDft H
  have hp := H.prime.two_le
  have hc : O.gf.card = p := H.card
  have w1 := (D.val w).2 hw
  have w2 := primitive_of D w1 (by positivity) hord
  obtain ⟨T, v, e, ev, hT, hTn, hi⟩ := Large.large_ft D mem (w := w) ⟨by omega, fun {r x y} _ _ _ => by
    rw [hc]
    refine ⟨Nat.mod_lt _ (by omega), ?_⟩
    show (((r * x + y) % p : Nat) : ZMod p) = (r : ZMod p) * (x : ZMod p) + (y : ZMod p)
    rw [ZMod.natCast_mod]; push_cast; rfl⟩ hl w1 w2.pow_eq_one
  refine ⟨T, e, hTn, fun out out' x ho ho' hx => ?_⟩
  obtain ⟨e1, e2⟩ := hT.fft.eq_dftVec D w1 ho hx
  refine ⟨e1, ?_⟩
  obtain ⟨y, ey, hy⟩ := ifft_fft D hl w2 ev hT.fft hT.fft_inv ho ho' hx.1 (fun j hj => (D.val _).2 (hx.2 j hj))
  rw [e1] at ey
  rw [Except.ok.inj ey, hi]
  exact hy

example : RingModN.IsPrimeField O257 257 ∧ 2 ^ 3 ∣ 257 - 1 ∧ 64 < 257 ∧ HasOrder O257.gf 64 (2 ^ 3) :=
  ⟨isPrimeField257, by decide, by decide, order64⟩

end Quad.Props
