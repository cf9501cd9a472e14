import Verif.Lemmas.Fft2nPrime
import Verif.Props.Ring

/-!
# Properties of src/fft_2n.h (C17, C18, C19)

`IsPrimeField O p`: the object `O` is what the library builds for the prime
field of `p` elements.  `Radix2.mk' O.gf n data_len = .ok R` says that `R` is a
transform object the constructor has returned.  A result `.ok r` means that the
call returned without any access out of range.
`gt a i` is the entry `a[i]`.
-/

namespace Quad.Props
open Quad Quad.RingModN Finset

variable {O : Obj} {p : Nat} [Fact p.Prime]

/-! ## C17 -/

/-- C17: the constructor succeeds for every power of two dividing `p - 1` and
every declared data length up to it, and its root has order exactly `n`. -/
theorem C17_ctor (H : IsPrimeField O p) {L dl : Nat} (hL : 2 ^ L ∣ p - 1) (hdl : dl ≤ 2 ^ L) :
    ∃ R, Radix2.mk' O.gf (2 ^ L) dl = .ok R ∧ R.n = 2 ^ L ∧ R.w < p ∧ orderOf (R.w : ZMod p) = 2 ^ L := by
  obtain ⟨R, e, _, _, h1, h2, h3, h4⟩ := H.radix2 hL hdl
  obtain ⟨S, _, hφ, _, hG, _⟩ := H.radix2_built hL e
  refine ⟨R, e, hG.n, h4, ?_⟩
  have := hG.root.eq_orderOf
  rw [hφ] at this
  exact this.symm

/-- C17: `fft` writes the evaluations of the input at the powers of `w`,
whatever `out` contained, when the longer of the input and the declared data
length is a power of two.  Missing: other lengths, see
`C17_other_lengths_read_old_output`. -/
theorem C17_fft_partial (H : IsPrimeField O p) {L dl : Nat} (hL : 2 ^ L ∣ p - 1) {R : Radix2}
    (hR : Radix2.mk' O.gf (2 ^ L) dl = .ok R) {out input : Array Nat} (hout : out.size = 2 ^ L)
    (hlen : ∃ d, d ≤ L ∧ max input.size (if dl = 0 then 2 ^ L else dl) = 2 ^ d)
    (hin : ∀ j, j < input.size → gt input j < p) :
    ∃ r, R.fft out input = .ok r ∧ r.size = 2 ^ L ∧ ∀ i, i < 2 ^ L →
      gt r i < p ∧ ((gt r i : Nat) : ZMod p) = ∑ j ∈ range input.size, (R.w : ZMod p) ^ (i * j) * ((gt input j : Nat) : ZMod p) := by
  obtain ⟨S, hV, hφ, _, hG, hdl, _⟩ := H.radix2_built hL hR
  obtain ⟨d, hd, hK⟩ := hlen
  have hK' : (if input.size > R.data_len then input.size else R.data_len) = 2 ^ d := by
    rw [hdl, ← hK]
    by_cases h0 : dl = 0
    · simp only [h0, lt_irrefl, if_false, if_true]; split <;> omega
    · rw [if_pos (show dl > 0 by omega), if_neg h0]; split <;> omega
  obtain ⟨r, e, h1, h2⟩ := Radix2.fft_word hG hd hout hK' (fun j hj => (hV _).mpr (hin j hj))
  refine ⟨r, e, h1, fun i hi => ⟨(hV _).mp (h2 i hi).1, ?_⟩⟩
  have := (h2 i hi).2
  simpa only [hφ] using this

/-- Outside that condition the result depends on what the output vector held
before the call: input of length 3 with declared data length 3 (or 2). -/
theorem C17_other_lengths_read_old_output : ∀ dl, dl = 2 ∨ dl = 3 →
    ∃ R, Radix2.mk' O257.gf 8 dl = .ok R ∧
      R.fft (Array.replicate 8 0) #[1, 2, 3] ≠ R.fft (Array.replicate 8 1) #[1, 2, 3] := by
  intro dl hdl
  have key : ∀ dl, (do
      let R ← Radix2.mk' O257.gf 8 dl
      pure (decide (R.fft (Array.replicate 8 0) #[1, 2, 3] ≠ R.fft (Array.replicate 8 1) #[1, 2, 3])) : Res Bool)
        = .ok true →
      ∃ R, Radix2.mk' O257.gf 8 dl = .ok R ∧
      R.fft (Array.replicate 8 0) #[1, 2, 3] ≠ R.fft (Array.replicate 8 1) #[1, 2, 3] := by
    intro dl h
    cases hR : Radix2.mk' O257.gf 8 dl with
    | error e => rw [hR] at h; cases h
    | ok R =>
      rw [hR, ok_bind] at h
      exact ⟨R, rfl, of_decide_eq_true (Except.ok.inj h)⟩
  rcases hdl with rfl | rfl
  · exact key 2 (by decide +kernel)
  · exact key 3 (by decide +kernel)

example : IsPrimeField O257 257 ∧ 2 ^ 3 ∣ 257 - 1 ∧ max (#[1, 2, 3] : Array Nat).size (if 4 = 0 then 2 ^ 3 else 4) = 2 ^ 2 :=
  ⟨isPrimeField257, by decide, by decide⟩
example : IsPrimeField O65537 65537 ∧ 2 ^ 16 ∣ 65537 - 1 := ⟨isPrimeField65537, by decide⟩

/-! ## C18 -/

/-- C18: `fft_inv` writes the evaluations at the powers of the inverse root. -/
theorem C18_fft_inv (H : IsPrimeField O p) {L dl : Nat} (hL : 2 ^ L ∣ p - 1) {R : Radix2}
    (hR : Radix2.mk' O.gf (2 ^ L) dl = .ok R) {out input : Array Nat} (hout : out.size = 2 ^ L)
    (hlen : input.size = 2 ^ L) (hin : ∀ j, j < input.size → gt input j < p) :
    ∃ r, R.fft_inv out input = .ok r ∧ r.size = 2 ^ L ∧ ∀ i, i < 2 ^ L →
      gt r i < p ∧ ((gt r i : Nat) : ZMod p) = ∑ j ∈ range (2 ^ L), (R.w : ZMod p)⁻¹ ^ (i * j) * ((gt input j : Nat) : ZMod p) := by
  obtain ⟨S, hV, hφ, _, hG, _⟩ := H.radix2_built hL hR
  obtain ⟨r, e, h1, h2⟩ := Radix2.fft_inv_word hG hout hlen (fun j hj => (hV _).mpr (hin j hj))
  refine ⟨r, e, h1, fun i hi => ⟨(hV _).mp (h2 i hi).1, ?_⟩⟩
  have := (h2 i hi).2
  simpa only [hφ] using this

/-- the two sums of `fft` and `ifft` undo each other -/
private theorem sums_inverse {L : Nat} {w iv : ZMod p} (hw : IsPrimitiveRoot w (2 ^ L)) (hp : 2 ^ L < p)
    (hiv : iv = ((2 : ZMod p) ^ L)⁻¹) (x : Nat → ZMod p) {k : Nat} (hk : k < 2 ^ L) :
    iv * ∑ i ∈ range (2 ^ L), w⁻¹ ^ (k * i) * ∑ j ∈ range (2 ^ L), w ^ (i * j) * x j = x k := by
  have h := dft_dft_inv (K := ZMod p) (M := ZMod p) (by positivity) hw x hk
  simp only [dft, smul_eq_mul] at h
  rw [h, hiv]
  have hne : (2 : ZMod p) ^ L ≠ 0 := by
    have := cast_ne_zero (p := p) (x := 2 ^ L) (by positivity) hp
    simpa using this
  push_cast
  rw [← mul_assoc, inv_mul_cancel₀ hne, one_mul]

/-- C18: `ifft(fft(x)) = x` for every full-length vector, whatever the two
output vectors contained. -/
theorem C18_ifft_fft (H : IsPrimeField O p) {L : Nat} (hL : 2 ^ L ∣ p - 1) {R : Radix2}
    (hR : Radix2.mk' O.gf (2 ^ L) 0 = .ok R) {out out' x : Array Nat} (hout : out.size = 2 ^ L)
    (hout' : out'.size = 2 ^ L) (hx : x.size = 2 ^ L) (hin : ∀ j, j < x.size → gt x j < p) :
    ∃ y, R.fft out x = .ok y ∧ R.ifft out' y = .ok x := by
  have h2 := H.prime.two_le
  have hlt : 2 ^ L < p := by have := Nat.le_of_dvd (by omega) hL; omega
  obtain ⟨y, e, h1, hy⟩ := C17_fft_partial H hL hR (out := out) (input := x) hout
    ⟨L, le_rfl, by simp [hx]⟩ hin
  obtain ⟨S, hV, hφ, _, hG, _, i1, i2, _⟩ := H.radix2_built hL hR
  obtain ⟨z, e', h1', hz⟩ := Radix2.ifft_word hG ((hV _).mpr i1) hout' h1 (fun j hj => (hV _).mpr (hy j (by omega)).1)
  refine ⟨y, e, ?_⟩
  rw [e']
  congr 1
  apply gt_ext (by omega)
  intro i hi
  have hi' : i < 2 ^ L := by omega
  apply cast_inj ((hV _).mp (hz i hi').1) (hin i (by omega))
  have h3 := (hz i hi').2
  simp only [hφ] at h3
  rw [h3]
  rw [← sums_inverse (x := fun j => ((gt x j : Nat) : ZMod p)) (by have := hG.root; rwa [hφ] at this) hlt i2 hi']
  congr 1
  apply sum_congr rfl
  intro j hj
  rw [(hy j (mem_range.mp hj)).2, hx]

/-- C18: `fft(ifft(y)) = y`. -/
theorem C18_fft_ifft (H : IsPrimeField O p) {L : Nat} (hL : 2 ^ L ∣ p - 1) {R : Radix2}
    (hR : Radix2.mk' O.gf (2 ^ L) 0 = .ok R) {out out' y : Array Nat} (hout : out.size = 2 ^ L)
    (hout' : out'.size = 2 ^ L) (hy : y.size = 2 ^ L) (hin : ∀ j, j < y.size → gt y j < p) :
    ∃ x, R.ifft out y = .ok x ∧ R.fft out' x = .ok y := by
  have h2 := H.prime.two_le
  have hlt : 2 ^ L < p := by have := Nat.le_of_dvd (by omega) hL; omega
  obtain ⟨S, hV, hφ, _, hG, _, i1, i2, _⟩ := H.radix2_built hL hR
  obtain ⟨x, e, h1, hx⟩ := Radix2.ifft_word hG ((hV _).mpr i1) hout hy (fun j hj => (hV _).mpr (hin j hj))
  obtain ⟨z, e', h1', hz⟩ := C17_fft_partial H hL hR (out := out') (input := x) hout'
    ⟨L, le_rfl, by simp [h1]⟩ (fun j hj => (hV _).mp (hx j (by omega)).1)
  refine ⟨x, e, ?_⟩
  rw [e']
  congr 1
  apply gt_ext (by omega)
  intro i hi
  have hi' : i < 2 ^ L := by omega
  apply cast_inj (hz i hi').1 (hin i (by omega))
  rw [(hz i hi').2, h1]
  have hroot : IsPrimitiveRoot (R.w : ZMod p) (2 ^ L) := by have := hG.root; rwa [hφ] at this
  have h4 := sums_inverse (w := (R.w : ZMod p)⁻¹) (iv := (R.inv_n : ZMod p)) hroot.inv hlt i2
    (fun j => ((gt y j : Nat) : ZMod p)) hi'
  rw [inv_inv] at h4
  rw [← h4, mul_sum]
  apply sum_congr rfl
  intro j hj
  have := (hx j (mem_range.mp hj)).2
  simp only [hφ] at this
  rw [this]; ring

/-- On words a shorter input to `fft_inv` is not zero-extended: the call reads
what the output vector held. -/
theorem C18_short_input_reads_old_output :
    ∃ R, Radix2.mk' O257.gf 8 0 = .ok R ∧
      R.fft_inv (Array.replicate 8 0) #[1, 2, 3] ≠ R.fft_inv (Array.replicate 8 1) #[1, 2, 3] := by
  have h : (do
      let R ← Radix2.mk' O257.gf 8 0
      pure (decide (R.fft_inv (Array.replicate 8 0) #[1, 2, 3] ≠ R.fft_inv (Array.replicate 8 1) #[1, 2, 3])) : Res Bool)
        = .ok true := by decide +kernel
  cases hR : Radix2.mk' O257.gf 8 0 with
  | error e => rw [hR] at h; cases h
  | ok R =>
    rw [hR, ok_bind] at h
    exact ⟨R, rfl, of_decide_eq_true (Except.ok.inj h)⟩

example : ∃ R, Radix2.mk' O257.gf (2 ^ 3) 0 = .ok R ∧ R.n = 2 ^ 3 := by
  have := Fact.mk prime257
  obtain ⟨R, h1, h2, _⟩ := C17_ctor isPrimeField257 (L := 3) (dl := 0) (by decide) (by decide)
  exact ⟨R, h1, h2⟩

/-! ## C19 -/

/-- the vector of the words at position `c` of every packet -/
def column (a : Array (Array Nat)) (c : Nat) : Array Nat := a.map (fun b => gt b c)

theorem column_size (a : Array (Array Nat)) (c : Nat) : (column a c).size = a.size := by simp [column]

theorem column_gt {a : Array (Array Nat)} {c j : Nat} (h : j < a.size) : gt (column a c) j = gt (gt a j) c := by
  rw [gt_eq (by simpa [column] using h), gt_eq h]; simp [column]

/-- the buffers hold `n` packets of `pkt` words of the field -/
def PktsOf (p n pkt : Nat) (a : Array (Array Nat)) : Prop :=
  a.size = n ∧ ∀ j, j < n → (gt a j).size = pkt ∧ ∀ c, c < pkt → gt (gt a j) c < p

/-- C19: for every packet position the packet transform computes what the
vector transform computes on that column.  Missing: lengths that are not a power
of two, where both versions read the old output (C17). -/
theorem C19_fft_partial (H : IsPrimeField O p) {L dl pkt : Nat} (hL : 2 ^ L ∣ p - 1) {R : Radix2}
    (hR : Radix2.mk' O.gf (2 ^ L) dl = .ok R) {out input : Array (Array Nat)} {out' : Array Nat} {n : Nat}
    (hout : out.size = 2 ^ L) (hout' : out'.size = 2 ^ L)
    (hlen : ∃ d, d ≤ L ∧ max n (if dl = 0 then 2 ^ L else dl) = 2 ^ d)
    (hn : 0 < n) (hin : PktsOf p n pkt input) :
    ∃ r, R.fftBufG (pktCell R.F pkt) out input = .ok r ∧ PktsOf p (2 ^ L) pkt r ∧
      ∀ c, c < pkt → R.fft out' (column input c) = .ok (column r c) := by
  obtain ⟨S, hV, hφ, _, hG, hdl, _⟩ := H.radix2_built hL hR
  have hs := hin.1
  obtain ⟨d, hd, hK⟩ := hlen
  have hK' : (if input.size > R.data_len then input.size else R.data_len) = 2 ^ d := by
    rw [hdl, hs, ← hK]
    by_cases h0 : dl = 0
    · simp only [h0, lt_irrefl, if_false, if_true]; split <;> omega
    · rw [if_pos (show dl > 0 by omega), if_neg h0]; split <;> omega
  have hdpos : 0 < R.data_len := by
    rw [hdl]; split
    · assumption
    · positivity
  obtain ⟨r, e, h1, hP, h2⟩ := Radix2.fft_pkt hG (pkt := pkt) hd hout (by omega) hdpos hK'
    (fun j hj => ⟨(hin.2 j (by omega)).1, fun c hc => (hV _).mpr ((hin.2 j (by omega)).2 c hc)⟩)
  refine ⟨r, e, ⟨h1, fun j hj => ⟨(hP j (by omega)).1, fun c hc => (hV _).mp ((hP j (by omega)).2 c hc)⟩⟩, ?_⟩
  intro c hc
  obtain ⟨v, ev, v1, v2⟩ := Radix2.fft_word hG (out := out') (input := column input c) hd hout'
    (by rw [column_size]; exact hK')
    (fun j hj => by
      rw [column_size] at hj
      rw [column_gt hj]; exact (hV _).mpr ((hin.2 j (by omega)).2 c hc))
  rw [ev]; congr 1
  apply gt_ext (by rw [column_size]; omega)
  intro i hi
  have hi' : i < 2 ^ L := by omega
  rw [column_gt (by omega)]
  apply cast_inj ((hV _).mp (v2 i hi').1) ((hV _).mp ((hP i (by omega)).2 c hc))
  have a1 := (v2 i hi').2
  have a2 := h2 i hi' c hc
  simp only [hφ, column_size] at a1 a2
  rw [a1, a2]
  apply sum_congr rfl
  intro j hj
  rw [column_gt (mem_range.mp hj)]

/-- the column extended by zeros to the length of the transform -/
def zeroExt (n : Nat) (a : Array Nat) : Array Nat := Array.ofFn (n := n) (fun i => if i.1 < a.size then gt a i.1 else 0)

/-- C19: the packet `fft_inv` of `n ≤ N` packets (the shortened first stages
run when `n < N`) computes on every column what the vector `fft_inv` computes on
that column extended by zeros. -/
theorem C19_fft_inv (H : IsPrimeField O p) {L dl pkt : Nat} (hL : 2 ^ L ∣ p - 1) (hint : L < 31) {R : Radix2}
    (hR : Radix2.mk' O.gf (2 ^ L) dl = .ok R) {out input : Array (Array Nat)} {out' : Array Nat} {n : Nat}
    (hout : out.size = 2 ^ L) (hpk : ∀ i, i < 2 ^ L → (gt out i).size = pkt) (hout' : out'.size = 2 ^ L)
    (hn : 0 < n) (hn' : n ≤ 2 ^ L) (hin : PktsOf p n pkt input) :
    ∃ r, R.fftInvBufG (pktCell R.F pkt) out input = .ok r ∧ PktsOf p (2 ^ L) pkt r ∧
      ∀ c, c < pkt → R.fft_inv out' (zeroExt (2 ^ L) (column input c)) = .ok (column r c) := by
  obtain ⟨S, hV, hφ, _, hG, hdl, _⟩ := H.radix2_built hL hR
  have h2 := H.prime.two_le
  have hs := hin.1
  obtain ⟨r, e, h1, hP, h2⟩ := Radix2.fft_inv_pkt hG (pkt := pkt) hint hout hpk (by omega) (by omega)
    (fun j hj => ⟨(hin.2 j (by omega)).1, fun c hc => (hV _).mpr ((hin.2 j (by omega)).2 c hc)⟩)
  refine ⟨r, e, ⟨h1, fun j hj => ⟨(hP j (by omega)).1, fun c hc => (hV _).mp ((hP j (by omega)).2 c hc)⟩⟩, ?_⟩
  intro c hc
  have hze : ∀ j, j < 2 ^ L → gt (zeroExt (2 ^ L) (column input c)) j
      = if j < input.size then gt (gt input j) c else 0 := by
    intro j hj
    unfold zeroExt
    rw [gt_ofFn hj]
    simp only [column_size]
    split
    · rename_i h; rw [column_gt h]
    · rfl
  have hzs : (zeroExt (2 ^ L) (column input c)).size = 2 ^ L := by simp [zeroExt]
  obtain ⟨v, ev, v1, v2⟩ := Radix2.fft_inv_word hG (out := out') (input := zeroExt (2 ^ L) (column input c)) hout' hzs
    (fun j hj => by
      rw [hze j (by omega)]
      split
      · exact (hV _).mpr ((hin.2 j (by omega)).2 c hc)
      · exact (hV _).mpr (by omega))
  rw [ev]; congr 1
  apply gt_ext (by rw [column_size]; omega)
  intro i hi
  have hi' : i < 2 ^ L := by omega
  rw [column_gt (by omega)]
  apply cast_inj ((hV _).mp (v2 i hi').1) ((hV _).mp ((hP i (by omega)).2 c hc))
  have a1 := (v2 i hi').2
  have a2 := h2 i hi' c hc
  simp only [hφ] at a1 a2
  rw [a1, a2]
  rw [← sum_subset (range_subset_range.mpr (show input.size ≤ 2 ^ L by omega))]
  · apply sum_congr rfl
    intro j hj
    have hj' := mem_range.mp hj
    rw [hze j (by omega), if_pos hj']
  · intro j hj hj2
    rw [hze j (mem_range.mp hj), if_neg (fun h => hj2 (mem_range.mpr h))]; simp

/-- C19: the packet `ifft` undoes the packet `fft`. -/
theorem C19_ifft_fft (H : IsPrimeField O p) {L pkt : Nat} (hL : 2 ^ L ∣ p - 1) (hint : L < 31) {R : Radix2}
    (hR : Radix2.mk' O.gf (2 ^ L) 0 = .ok R) {out out' input : Array (Array Nat)}
    (hout : out.size = 2 ^ L) (hout' : out'.size = 2 ^ L) (hpk : ∀ i, i < 2 ^ L → (gt out' i).size = pkt)
    (hin : PktsOf p (2 ^ L) pkt input) :
    ∃ r, R.fftBufG (pktCell R.F pkt) out input = .ok r ∧ R.ifftBufG (pktCell R.F pkt) out' r = .ok input := by
  obtain ⟨S, hV, hφ, hneg, hG, hdl, i1, i2, _⟩ := H.radix2_built hL hR
  have h2 := H.prime.two_le
  have hlt : 2 ^ L < p := by have := Nat.le_of_dvd (by omega) hL; omega
  have hpos : 0 < 2 ^ L := by positivity
  rw [if_neg (by omega)] at hdl
  have hs := hin.1
  obtain ⟨r, e, h1, hP, h2⟩ := Radix2.fft_pkt hG (pkt := pkt) (d := L) le_rfl hout (input := input) (by omega) (by omega)
    (by rw [hdl, hs]; simp)
    (fun j hj => ⟨(hin.2 j (by omega)).1, fun c hc => (hV _).mpr ((hin.2 j (by omega)).2 c hc)⟩)
  obtain ⟨z, e', z1, zP, z2⟩ := Radix2.ifft_pkt hG hint hneg ((hV _).mpr i1) hout' hpk (by omega) (by omega) hP
  refine ⟨r, e, ?_⟩
  rw [e']; congr 1
  apply gt_ext (by omega)
  intro i hi
  have hi' : i < 2 ^ L := by omega
  apply gt_ext (by rw [(zP i hi).1, (hin.2 i hi').1])
  intro c hc
  rw [(zP i hi).1] at hc
  apply cast_inj ((hV _).mp ((zP i hi).2 c hc)) ((hin.2 i hi').2 c hc)
  have a2 := z2 i hi' c hc
  simp only [hφ, h1] at a2
  rw [a2, ← sums_inverse (x := fun j => ((gt (gt input j) c : Nat) : ZMod p)) (by have := hG.root; rwa [hφ] at this) hlt i2 hi']
  congr 1
  apply sum_congr rfl
  intro j hj
  have := h2 j (mem_range.mp hj) c hc
  simp only [hφ, hs] at this
  rw [this]

/-- C19: the bit reversal of the packet `fft_inv` swaps buffer pointers before
and after the butterflies; together the two passes restore every pointer to its
place, whatever the pointers are. -/
theorem C19_buffer_order (H : IsPrimeField O p) {L dl : Nat} (hL : 2 ^ L ∣ p - 1) {R : Radix2}
    (hR : Radix2.mk' O.gf (2 ^ L) dl = .ok R) {ptrs : Array Nat} (hp : ptrs.size = 2 ^ L) :
    (do let q ← R.bit_rev_permute ptrs
        R.bit_rev_permute q) = .ok ptrs := by
  obtain ⟨S, hV, hφ, _, hG, _⟩ := H.radix2_built hL hR
  obtain ⟨q, e, q1, q2⟩ := bit_rev_permute_spec hG.n hG.revSize hG.rev ptrs hp
  obtain ⟨q', e', q1', q2'⟩ := bit_rev_permute_spec hG.n hG.revSize hG.rev q q1
  rw [e, ok_bind, e']; congr 1
  apply gt_ext (by omega)
  intro i hi
  rw [q2' i (by omega), q2 _ (bitrev_lt L i), bitrev_bitrev L i (by omega)]

example : PktsOf 257 3 2 #[#[1, 256], #[2, 0], #[3, 7]] := by
  refine ⟨rfl, ?_⟩
  intro j hj
  interval_cases j <;> refine ⟨rfl, ?_⟩ <;> intro c hc <;> interval_cases c <;> decide

end Quad.Props
