import Verif.Lemmas.BufElem
import Verif.Lemmas.FecBufCtx
import Verif.Lemmas.FecFntBuf
import Verif.Props.Fft2n
import Verif.Spec.Fnt

/-!
# Operations on buffers in memory (C13, C19, C24, C35, C41)

The heap `H` is the array of the memory blocks.  `el H q c` is the word `q[c]`.
`OnlyAt q H H'`: at most block `q` differs.  `Frame m H H'`: at most the blocks
whose pointers are in `m` differ.  `Okb len H m`: the pointers in `m` are blocks
of `len` words.  `InjPtr m`: the pointers are distinct.
`Disj m m'`: no common pointer.
-/

namespace Quad.Props
open Quad Quad.RingModN Quad.Spec Finset

/-! ## C13 -/

section
variable {O : Obj} {H : Heap} {len : Nat}

/-- C13: `dest[i] = a * src[i]`; the two may be the same buffer -/
theorem C13_mul_coef_to_buf (hf : O.ring.Fits) {a src dest : Nat} (hs : src < H.size) (hd : dest < H.size)
    (h1 : (gt H src).size = len) (h2 : (gt H dest).size = len) (ha : a < O.ring.card)
    (hv : ∀ c, c < len → el H src c < O.ring.card) :
    ∃ H', BufOps.mul_coef_to_buf O.gf a src dest len H = .ok H' ∧ OnlyAt dest H H' ∧ (gt H' dest).size = len ∧
      ∀ c, c < len → el H' dest c = a * el H src c % O.ring.card := by
  obtain ⟨H', e, o, s, g⟩ := mul_coef_to_buf_el O.gf (a := a) hs hd h1 h2
  exact ⟨H', e, o, s, fun c hc => by rw [g c hc]; exact (C09_ring_ops hf ha (hv c hc)).2.2.1⟩

/-- C13: `dest[i] += src[i]` -/
theorem C13_add_two_bufs (hf : O.ring.Fits) {src dest : Nat} (hs : src < H.size) (hd : dest < H.size)
    (h1 : (gt H src).size = len) (h2 : (gt H dest).size = len)
    (hv : ∀ c, c < len → el H src c < O.ring.card ∧ el H dest c < O.ring.card) :
    ∃ H', BufOps.add_two_bufs O.gf src dest len H = .ok H' ∧ OnlyAt dest H H' ∧ (gt H' dest).size = len ∧
      ∀ c, c < len → el H' dest c = (el H src c + el H dest c) % O.ring.card := by
  obtain ⟨H', e, o, s, g⟩ := add_two_bufs_el O.gf hs hd h1 h2
  exact ⟨H', e, o, s, fun c hc => by rw [g c hc]; exact (C09_ring_ops hf (hv c hc).1 (hv c hc).2).1⟩

/-- C13: `res[i] = a[i] - b[i]`; `res` may be `a` or `b` -/
theorem C13_sub_two_bufs (hf : O.ring.Fits) {a b res : Nat} (ha : a < H.size) (hb : b < H.size) (hr : res < H.size)
    (h1 : (gt H a).size = len) (h2 : (gt H b).size = len) (h3 : (gt H res).size = len)
    (hv : ∀ c, c < len → el H a c < O.ring.card ∧ el H b c < O.ring.card) :
    ∃ H', BufOps.sub_two_bufs O.gf a b res len H = .ok H' ∧ OnlyAt res H H' ∧ (gt H' res).size = len ∧
      ∀ c, c < len → el H' res c = (el H a c + O.ring.card - el H b c) % O.ring.card := by
  obtain ⟨H', e, o, s, g⟩ := sub_two_bufs_el O.gf ha hb hr h1 h2 h3
  exact ⟨H', e, o, s, fun c hc => by rw [g c hc]; exact (C09_ring_ops hf (hv c hc).1 (hv c hc).2).2.1⟩

/-- C13: `x[i] *= y[i]` -/
theorem C13_hadamard_mul (hf : O.ring.Fits) {x y : Nat} (hx : x < H.size) (hy : y < H.size)
    (h1 : (gt H x).size = len) (h2 : (gt H y).size = len)
    (hv : ∀ c, c < len → el H x c < O.ring.card ∧ el H y c < O.ring.card) :
    ∃ H', BufOps.hadamard_mul O.gf len x y H = .ok H' ∧ OnlyAt x H H' ∧ (gt H' x).size = len ∧
      ∀ c, c < len → el H' x c = el H x c * el H y c % O.ring.card := by
  obtain ⟨H', e, o, s, g⟩ := hadamard_mul_el O.gf hx hy h1 h2
  exact ⟨H', e, o, s, fun c hc => by rw [g c hc]; exact (C09_ring_ops hf (hv c hc).1 (hv c hc).2).2.2.1⟩

theorem sub_zero_val (hf : O.ring.Fits) {x : Nat} (hx : x < O.ring.card) :
    O.gf.sub 0 x = (O.ring.card - x) % O.ring.card := by
  rw [show O.gf.sub 0 x = O.ring.sub 0 x from rfl, (C09_ring_ops hf (by have := hf.pos; omega) hx).2.1, Nat.zero_add]

/-- C13: `x[i] = -x[i]` for every buffer of the object -/
theorem C13_neg (hf : O.ring.Fits) {B : Bufs} (hn : B.n = B.mem.size) (hinj : InjPtr B.mem) (hd : Okb B.size H B.mem)
    (hv : ∀ i c, i < B.n → c < B.size → el H (gt B.mem i) c < O.ring.card) :
    ∃ H', BufOps.negBufs O.gf B H = .ok H' ∧ Frame B.mem H H' ∧ Okb B.size H' B.mem ∧
      ∀ i, i < B.n → ∀ c, c < B.size → el H' (gt B.mem i) c = (O.ring.card - el H (gt B.mem i) c) % O.ring.card := by
  obtain ⟨H', e, o, s, g⟩ := negBufs_el O.gf hn rfl hinj hd
  exact ⟨H', e, o, s, fun i hi c hc => by rw [g i hi c hc]; exact sub_zero_val hf (hv i c hi hc)⟩

/-- C13: `dest[i] = u[i] * src[i]` for every buffer `i` and every coefficient, in
particular `0`, `1` and `card - 1`, which the code treats apart.  The objects may
share buffers: a buffer must not be read after it has been written as another one. -/
theorem C13_mul_vec_to_vecp (hf : O.ring.Fits) {u : Array Nat} {src dest : Bufs} (hu : u.size = src.n)
    (hss : src.mem.size = src.n) (hds : dest.mem.size = src.n) (hlen : dest.size = src.size)
    (hinj : InjPtr dest.mem) (hal : ∀ i j, i < src.n → j < i → gt src.mem i ≠ gt dest.mem j)
    (hs : Okb src.size H src.mem) (hd : Okb src.size H dest.mem) (hc : ∀ i, i < src.n → gt u i < O.ring.card)
    (hv : ∀ i c, i < src.n → c < src.size → el H (gt src.mem i) c < O.ring.card) :
    ∃ H', BufOps.mul_vec_to_vecp O.gf u src dest H = .ok H' ∧ Frame dest.mem H H' ∧ Okb dest.size H' dest.mem ∧
      ∀ i, i < src.n → ∀ c, c < src.size →
        el H' (gt dest.mem i) c = gt u i * el H (gt src.mem i) c % O.ring.card := by
  have hp := hf.pos
  obtain ⟨H', e, o, s, g, _⟩ := mul_vec_to_vecp_el O.gf (u := u) (len := src.size) hu (by omega) (by omega) rfl hinj
    (by rw [hu]; exact hal) (fun i hi => by
      have := hc i (by omega)
      show gt u i ≤ O.ring.card - 1
      omega) hs hd
  refine ⟨H', e, o, by rw [hlen]; exact s, fun i hi c hc' => ?_⟩
  have hx := hv i c hi hc'
  have hci := hc i hi
  rw [g i (by omega) c hc']
  split
  · rename_i h; rw [h, one_mul, Nat.mod_eq_of_lt hx]
  split
  · rename_i h; rw [h, zero_mul, Nat.zero_mod]
  split
  · rename_i h
    rw [sub_zero_val hf hx, h, show O.gf.cardM1 = O.ring.card - 1 from rfl]
    generalize el H (gt src.mem i) c = x at *
    rw [Nat.sub_mul, one_mul]
    rcases Nat.eq_zero_or_pos x with rfl | h0
    · simp
    · rw [show O.ring.card * x - x = (O.ring.card - x) + O.ring.card * (x - 1) by
        have : O.ring.card * x = O.ring.card * (x - 1) + O.ring.card := by
          rw [← Nat.mul_succ]; congr 1; omega
        omega, Nat.add_mul_mod_self_left]
  · exact (C09_ring_ops hf hci hx).2.2.1

/-- C13: `dest[i] += src[i]` for every buffer -/
theorem C13_add_vecp_to_vecp (hf : O.ring.Fits) {src dest : Bufs} (hn : src.n = dest.n) (hz : src.size = dest.size)
    (hss : src.mem.size = src.n) (hds : dest.mem.size = dest.n)
    (hinj : InjPtr dest.mem) (hal : ∀ i j, i < src.n → j < i → gt src.mem i ≠ gt dest.mem j)
    (hs : Okb src.size H src.mem) (hd : Okb src.size H dest.mem)
    (hv : ∀ i c, i < src.n → c < src.size → el H (gt src.mem i) c < O.ring.card ∧ el H (gt dest.mem i) c < O.ring.card) :
    ∃ H', BufOps.add_vecp_to_vecp O.gf src dest H = .ok H' ∧ Frame dest.mem H H' ∧ Okb dest.size H' dest.mem ∧
      ∀ i, i < src.n → ∀ c, c < src.size →
        el H' (gt dest.mem i) c = (el H (gt src.mem i) c + el H (gt dest.mem i) c) % O.ring.card := by
  obtain ⟨H', e, o, s, g⟩ := add_vecp_to_vecp_el O.gf hn hz hss hds rfl hinj hal hs hd
  exact ⟨H', e, o, by rw [← hz]; exact s, fun i hi c hc => by
    rw [g i hi c hc]; exact (C09_ring_ops hf (hv i c hi hc).1 (hv i c hi hc).2).1⟩

/-- C13: `res[i] = a[i] - b[i]` for every buffer -/
theorem C13_sub_vecp_to_vecp (hf : O.ring.Fits) {a b res : Bufs} (hn : a.n = b.n) (hn' : res.n = a.n) (hz : a.size = b.size)
    (has : a.mem.size = a.n) (hbs : b.mem.size = b.n) (hrs : res.mem.size = res.n)
    (hinj : InjPtr res.mem) (hal : ∀ i j, i < a.n → j < i → gt a.mem i ≠ gt res.mem j ∧ gt b.mem i ≠ gt res.mem j)
    (ha : Okb a.size H a.mem) (hb : Okb a.size H b.mem) (hr : Okb a.size H res.mem)
    (hv : ∀ i c, i < a.n → c < a.size → el H (gt a.mem i) c < O.ring.card ∧ el H (gt b.mem i) c < O.ring.card) :
    ∃ H', BufOps.sub_vecp_to_vecp O.gf a b res H = .ok H' ∧ Frame res.mem H H' ∧ Okb a.size H' res.mem ∧
      ∀ i, i < a.n → ∀ c, c < a.size →
        el H' (gt res.mem i) c = (el H (gt a.mem i) c + O.ring.card - el H (gt b.mem i) c) % O.ring.card := by
  obtain ⟨H', e, o, s, g⟩ := sub_vecp_to_vecp_el O.gf hn hn' hz has hbs hrs rfl hinj hal ha hb hr
  exact ⟨H', e, o, s, fun i hi c hc => by
    rw [g i hi c hc]; exact (C09_ring_ops hf (hv i c hi hc).1 (hv i c hi hc).2).2.1⟩

end

/-! ## C19 on memory -/

/-- the words at position `c` of the buffers -/
def columnOf (H : Heap) (mem : Array Nat) (c : Nat) : Array Nat := mem.map (fun q => el H q c)

theorem columnOf_size (H : Heap) (mem : Array Nat) (c : Nat) : (columnOf H mem c).size = mem.size := by simp [columnOf]

theorem columnOf_gt {H : Heap} {mem : Array Nat} {c j : Nat} (h : j < mem.size) :
    gt (columnOf H mem c) j = el H (gt mem j) c := by
  unfold columnOf; rw [gt_map h]

/-- the buffers of the object are distinct blocks of `pkt` field elements -/
def Elems (p pkt : Nat) (H : Heap) (mem : Array Nat) : Prop := Okb pkt H mem ∧ ∀ j c, j < mem.size → c < pkt → el H (gt mem j) c < p

section
variable {O : Obj} {p : Nat} [Fact p.Prime]

/-- C19: `fft` on buffers computes on every column what `fft` computes on the
vector; it writes only the output buffers.  Missing: lengths that are not a power
of two, where both versions read the old output (C17). -/
theorem C19_fft_memory_partial (P : IsPrimeField O p) {L dl pkt : Nat} (hL : 2 ^ L ∣ p - 1) (hint : L < 31) {R : Radix2}
    (hR : Radix2.mk' O.gf (2 ^ L) dl = .ok R) {H : Heap} {mem inp out' : Array Nat}
    (hm : mem.size = 2 ^ L) (hout' : out'.size = 2 ^ L)
    (hlen : ∃ d, d ≤ L ∧ max inp.size (if dl = 0 then 2 ^ L else dl) = 2 ^ d) (hn : 0 < inp.size)
    (hinj : InjPtr mem) (hdis : Disj mem inp) (ho : Okb pkt H mem) (hin : Elems p pkt H inp) :
    ∃ H', R.fftH pkt mem inp H = .ok H' ∧ Frame mem H H' ∧ Elems p pkt H' mem ∧
      ∀ c, c < pkt → R.fft out' (columnOf H inp c) = .ok (columnOf H' mem c) := by
  obtain ⟨S, hV, hφ, hneg, hG, hdl, i1, i2, _⟩ := P.radix2_built hL hR
  obtain ⟨d, hd, hK⟩ := hlen
  have hK' : (if inp.size > R.data_len then inp.size else R.data_len) = 2 ^ d := by
    rw [hdl, ← hK]
    by_cases h0 : dl = 0
    · simp only [h0, lt_irrefl, if_false, if_true]; split <;> omega
    · rw [if_pos (show dl > 0 by omega), if_neg h0]; split <;> omega
  have hdpos : 0 < R.data_len := by
    rw [hdl]; split
    · assumption
    · positivity
  obtain ⟨H', e, fr, o', g⟩ := (Radix2.fth_spec hG (pkt := pkt) hint hdpos (hneg.coef ((hV _).mpr i1))
    (by rw [hφ, i2]; push_cast; rfl)).fft hm ⟨hn, d, hd, hK'⟩ hinj hdis ho hin.1 (fun j c hj hc => (hV _).mpr (hin.2 j c hj hc))
  refine ⟨H', e, fr, ⟨o', fun j c hj hc => (hV _).mp (g j (by omega) c hc).1⟩, fun c hc => ?_⟩
  obtain ⟨v, ev, v1, v2⟩ := Radix2.fft_word hG (out := out') (input := columnOf H inp c) hd hout'
    (by rw [columnOf_size]; exact hK')
    (fun j hj => by
      rw [columnOf_size] at hj
      rw [columnOf_gt hj]; exact (hV _).mpr (hin.2 j c hj hc))
  rw [ev]; congr 1
  apply gt_ext (by rw [columnOf_size]; omega)
  intro i hi
  have hi' : i < 2 ^ L := by omega
  rw [columnOf_gt (by omega)]
  apply cast_inj ((hV _).mp (v2 i hi').1) ((hV _).mp (g i hi' c hc).1)
  have a1 := (v2 i hi').2
  have a2 := (g i hi' c hc).2
  simp only [hφ, columnOf_size] at a1 a2
  rw [a1, a2]
  apply sum_congr rfl
  intro j hj
  rw [columnOf_gt (mem_range.mp hj)]

/-- C19: `fft_inv` on at most `2^L` buffers computes on every column what
`fft_inv` computes on the vector extended by zeros, and `ifft` computes what
`ifft` computes.  Only the output buffers are written, and the order of the
pointers of the output object is what it was. -/
theorem C19_fft_inv_memory (P : IsPrimeField O p) {L dl pkt : Nat} (hL : 2 ^ L ∣ p - 1) (hint : L < 31) {R : Radix2}
    (hR : Radix2.mk' O.gf (2 ^ L) dl = .ok R) {H : Heap} {mem inp out' : Array Nat}
    (hm : mem.size = 2 ^ L) (hout' : out'.size = 2 ^ L) (hn : 0 < inp.size) (hn' : inp.size ≤ 2 ^ L)
    (hinj : InjPtr mem) (hdis : Disj mem inp) (ho : Okb pkt H mem) (hin : Elems p pkt H inp) :
    (∃ H', R.fftInvH pkt mem inp H = .ok (mem, H') ∧ Frame mem H H' ∧ Elems p pkt H' mem ∧
      ∀ c, c < pkt → R.fft_inv out' (zeroExt (2 ^ L) (columnOf H inp c)) = .ok (columnOf H' mem c)) ∧
    ∃ H', R.ifftH pkt mem inp H = .ok (mem, H') ∧ Frame mem H H' ∧ Elems p pkt H' mem ∧
      ∀ c, c < pkt → R.ifft out' (zeroExt (2 ^ L) (columnOf H inp c)) = .ok (columnOf H' mem c) := by
  have hp2 := P.prime.two_le
  obtain ⟨S, hV, hφ, hneg, hG, hdl, i1, i2, _⟩ := P.radix2_built hL hR
  have hdpos : 0 < R.data_len := by
    rw [hdl]; split
    · assumption
    · positivity
  have hS := Radix2.fth_spec hG (pkt := pkt) hint hdpos (hneg.coef ((hV _).mpr i1)) (by rw [hφ, i2]; push_cast; rfl)
  have hVin : ∀ j c, j < inp.size → c < pkt → S.V (el H (gt inp j) c) := fun j c hj hc => (hV _).mpr (hin.2 j c hj hc)
  have hze : ∀ c j, j < 2 ^ L → gt (zeroExt (2 ^ L) (columnOf H inp c)) j
      = if j < inp.size then el H (gt inp j) c else 0 := by
    intro c j hj
    unfold zeroExt
    rw [gt_ofFn hj]
    simp only [columnOf_size]
    split
    · rename_i h; rw [columnOf_gt h]
    · rfl
  have hzs : ∀ c, (zeroExt (2 ^ L) (columnOf H inp c)).size = 2 ^ L := fun c => by simp [zeroExt]
  have hzV : ∀ c, c < pkt → ∀ j, j < (zeroExt (2 ^ L) (columnOf H inp c)).size → S.V (gt (zeroExt (2 ^ L) (columnOf H inp c)) j) := by
    intro c hc j hj
    rw [hzs] at hj
    rw [hze c j hj]
    split
    · rename_i h; exact hVin j c h hc
    · exact (hV _).mpr (by omega)
  have hsum : ∀ c i, ∑ j ∈ range (2 ^ L), (S.φ R.w)⁻¹ ^ (i * j) * S.φ (gt (zeroExt (2 ^ L) (columnOf H inp c)) j)
      = ∑ j ∈ range inp.size, (S.φ R.w)⁻¹ ^ (i * j) * S.φ (el H (gt inp j) c) := by
    intro c i
    rw [← sum_subset (range_subset_range.mpr hn')]
    · apply sum_congr rfl
      intro j hj
      have hj' := mem_range.mp hj
      rw [hze c j (by omega), if_pos hj']
    · intro j hj hj2
      rw [hze c j (mem_range.mp hj), if_neg (fun h => hj2 (mem_range.mpr h)), S.zero.2, mul_zero]
  constructor
  · obtain ⟨H', e, fr, o', g⟩ := hS.fft_inv hm hn hn' hinj hdis ho hin.1 hVin
    refine ⟨H', e, fr, ⟨o', fun j c hj hc => (hV _).mp (g j (by omega) c hc).1⟩, fun c hc => ?_⟩
    obtain ⟨v, ev, v1, v2⟩ := Radix2.fft_inv_word hG (out := out') (input := zeroExt (2 ^ L) (columnOf H inp c)) hout' (hzs c)
      (hzV c hc)
    rw [ev]; congr 1
    apply gt_ext (by rw [columnOf_size]; omega)
    intro i hi
    have hi' : i < 2 ^ L := by omega
    rw [columnOf_gt (by omega)]
    apply cast_inj ((hV _).mp (v2 i hi').1) ((hV _).mp (g i hi' c hc).1)
    have a1 := (v2 i hi').2
    have a2 := (g i hi' c hc).2
    rw [hsum] at a1
    rw [hφ] at a1 a2
    rw [a1, a2]
  · obtain ⟨H', e, fr, o', g⟩ := hS.ifft hm hn hn' hinj hdis ho hin.1 hVin
    refine ⟨H', e, fr, ⟨o', fun j c hj hc => (hV _).mp (g j (by omega) c hc).1⟩, fun c hc => ?_⟩
    obtain ⟨v, ev, v1, v2⟩ := Radix2.ifft_word hG ((hV _).mpr i1) (out := out') (input := zeroExt (2 ^ L) (columnOf H inp c)) hout' (hzs c)
      (hzV c hc)
    rw [ev]; congr 1
    apply gt_ext (by rw [columnOf_size]; omega)
    intro i hi
    have hi' : i < 2 ^ L := by omega
    rw [columnOf_gt (by omega)]
    apply cast_inj ((hV _).mp (v2 i hi').1) ((hV _).mp (g i hi' c hc).1)
    have a1 := (v2 i hi').2
    have a2 := (g i hi' c hc).2
    rw [hsum] at a1
    rw [hφ (gt v i), hφ R.inv_n, i2] at a1
    rw [hφ (el H' (gt mem i) c)] at a2
    rw [a1, a2]
    push_cast
    rfl

end

/-! ## C35 -/

/-- the word sizes the packing functions know -/
def PackSize (w : Nat) : Prop := w = 1 ∨ w = 2 ∨ w = 4 ∨ w = 8 ∨ w = 16

theorem leVal_digits (l : List Nat) : leVal l = Nat.ofDigits 256 l := by
  induction l with
  | nil => rfl
  | cons a l ih => rw [leVal, Nat.ofDigits_cons, ih]

/-- C35: packing groups the bytes in order, little-endian: word `c` of buffer `i` is made of bytes `c w .. c w + w - 1`. -/
theorem C35_pack {b w n pkt : Nat} {src : Array (Array Nat)} {dest : Array Nat} {H : Heap} (hw : PackSize w) (hb : 8 * w ≤ b)
    (h1 : src.size = n) (h2 : dest.size = n) (hs : ∀ i, i < n → (gt src i).size = pkt * w) (hi : InjPtr dest) (ho : Okb pkt H dest) :
    ∃ H', pack b src dest n pkt w H = .ok H' ∧ Frame dest H H' ∧ Okb pkt H' dest ∧
      ∀ i c, i < n → c < pkt → el H' (gt dest i) c = word w (gt src i).toList c := by
  obtain ⟨H', e, f, o, g⟩ := pack_spec (b := b) hw hb h1.ge h2 hs hi ho
  exact ⟨H', e, f, o, fun i c hi hc => by rw [g i c hi hc]; exact leVal_digits _⟩

/-- C35: unpacking writes the `w` low bytes of every word, least significant first. -/
theorem C35_unpack {b w n pkt : Nat} {src : Array Nat} {dest : Array (Array Nat)} {H : Heap} (hw : PackSize w) (hb : 8 * w ≤ b)
    (h1 : src.size = n) (h2 : dest.size = n) (hs : ∀ i, i < n → (gt dest i).size = pkt * w) (ho : Okb pkt H src) :
    ∃ d, unpack b src dest n pkt w H = .ok d ∧ d.size = n ∧ ∀ i, i < n → (gt d i).size = pkt * w ∧
      ∀ c t, c < pkt → t < w → gt (gt d i) (c * w + t) = el H (gt src i) c / 256 ^ t % 256 := by
  obtain ⟨d, e, s, g⟩ := unpack_spec (b := b) hw hb h1.ge h2.ge hs ho
  refine ⟨d, e, by omega, fun i hi => ⟨by rw [g i hi]; simp, fun c t hc ht => ?_⟩⟩
  rw [g i hi]
  have := flat_get (f := el H (gt src i)) hc ht
  generalize el H (gt src i) c / 256 ^ t % 256 = v at this
  generalize flat w (el H (gt src i)) pkt = l at this
  simp [gt, this]

/-- C35: unpacking then packing is the identity on words that fit `w` bytes. -/
theorem C35_pack_unpack_partial {b w n pkt : Nat} {src dest : Array Nat} {bufs : Array (Array Nat)} {H : Heap} (hw : PackSize w) (hb : 8 * w ≤ b)
    (h1 : src.size = n) (h2 : bufs.size = n) (h3 : dest.size = n) (hs : ∀ i, i < n → (gt bufs i).size = pkt * w) (ho : Okb pkt H src)
    (hi : InjPtr dest) (ho' : Okb pkt H dest) (hv : ∀ i c, i < n → c < pkt → el H (gt src i) c < 256 ^ w) :
    ∃ d H', unpack b src bufs n pkt w H = .ok d ∧ pack b d dest n pkt w H = .ok H' ∧ Frame dest H H' ∧
      ∀ i c, i < n → c < pkt → el H' (gt dest i) c = el H (gt src i) c := by
  obtain ⟨d, e, s, g⟩ := unpack_spec (b := b) hw hb h1.ge h2.ge hs ho
  obtain ⟨H', e', f, _, g'⟩ := pack_spec (b := b) (src := d) (dest := dest) (n := n) (pkt := pkt) (H := H) hw hb (by omega) h3
    (fun i hi => by rw [g i hi]; simp) hi ho'
  refine ⟨d, H', e, e', f, fun i c hi hc => ?_⟩
  rw [g' i c hi hc, g i hi]
  exact wordAt_flat hc (hv i c hi hc)

/-- C35: packing then unpacking restores the bytes. -/
theorem C35_unpack_pack_partial {b w n pkt : Nat} {src out : Array (Array Nat)} {dest : Array Nat} {H : Heap} (hw : PackSize w) (hb : 8 * w ≤ b)
    (h1 : src.size = n) (h2 : dest.size = n) (h3 : out.size = n) (hs : ∀ i, i < n → (gt src i).size = pkt * w)
    (hso : ∀ i, i < n → (gt out i).size = pkt * w) (hi : InjPtr dest) (ho : Okb pkt H dest)
    (hv : ∀ i, i < n → ∀ x ∈ (gt src i).toList, x < 256) :
    ∃ H', pack b src dest n pkt w H = .ok H' ∧ unpack b dest out n pkt w H' = .ok src := by
  obtain ⟨H', e, f, o, g⟩ := pack_spec (b := b) hw hb h1.ge h2 hs hi ho
  obtain ⟨d, e', s, g'⟩ := unpack_spec (b := b) (src := dest) (dest := out) (n := n) hw hb h2.ge h3.ge hso o
  refine ⟨H', e, ?_⟩
  rw [e']
  congr 1
  apply gt_ext (by omega)
  intro i hi
  have hi' : i < n := by omega
  rw [g' i hi']
  have hl : (gt src i).toList.length = pkt * w := by rw [Array.length_toList]; exact hs i hi'
  have h := flat_wordAt (w := w) (l := (gt src i).toList) (T := pkt) (by omega) (hv i hi')
  rw [List.take_of_length_le (by omega)] at h
  have h' : flat w (el H' (gt dest i)) pkt = flat w (wordAt w (gt src i).toList) pkt := by
    unfold flat
    apply List.flatMap_congr
    intro c hc
    rw [g i c hi' (List.mem_range.mp hc)]
  rw [h', h]

/-- For any other word size both functions return without doing anything: the
words keep their old value, so the property is false there.  `RsNf4` accepts
word size 6 (fec_rs_nf4.h:76-82). -/
theorem C35_other_word_sizes_ignored {b w : Nat} (hw : ¬ PackSize w) (hb : 8 * w ≤ b) (src out : Array (Array Nat)) (ptrs : Array Nat)
    (n pkt : Nat) (H : Heap) : pack b src ptrs n pkt w H = .ok H ∧ unpack b ptrs out n pkt w H = .ok out := by
  unfold PackSize at hw
  constructor
  · unfold pack
    simp only [cassert, hb, decide_true, if_true, ok_bind, if_neg hw]; rfl
  · unfold unpack
    simp only [cassert, hb, decide_true, if_true, ok_bind, if_neg hw]; rfl

example : PackSize 4 ∧ 8 * 4 ≤ 64 ∧ InjPtr #[0, 1] ∧ Okb 3 (#[#[7, 8, 9], #[1, 2, 3]] : Heap) #[0, 1] := by
  refine ⟨by unfold PackSize; decide, by decide, ?_, ?_⟩
  · intro i j hi hj
    have hi' : i < 2 := hi
    have hj' : j < 2 := hj
    interval_cases i <;> interval_cases j <;> decide
  · intro i hi
    have hi' : i < 2 := hi
    interval_cases i <;> decide

/-- C35: `readw` reads back what `writew` appended, and leaves the rest of the stream. -/
theorem C35_readw_writew {w v : Nat} (hw : PackSize w) (hv : v < 256 ^ w) (s rest : List Nat) :
    ∃ t, writew w v s = .ok (s ++ t) ∧ t.length = w ∧ (∀ x ∈ t, x < 256) ∧ Nat.ofDigits 256 t = v ∧
      readw w (t ++ rest) = .ok (some (v, rest)) := by
  have hw' : w = 1 ∨ w = 2 ∨ w = 4 ∨ w = 8 ∨ w = 16 := hw
  refine ⟨leBytes w v, ?_, leBytes_length _ _, leBytes_lt w v, by rw [← leVal_digits]; exact leVal_leBytes hv, ?_⟩
  · unfold writew
    simp only [cassert, hw', decide_true, if_true, ok_bind]; rfl
  · unfold readw
    simp only [cassert, hw', decide_true, if_true, ok_bind]
    rw [if_neg (by rw [List.length_append, leBytes_length]; omega), List.take_left' (leBytes_length _ _),
      List.drop_left' (leBytes_length _ _), leVal_leBytes hv]
    rfl

/-! ## C24 in packets -/

/-- record the marks of `T` packets, one after the other, from empty properties; `heaps t` is the memory when packet `t` has been encoded -/
def markPackets (B : FecBase) (output : Bufs) (heaps : Nat → Heap) : Nat → Res (Array Properties)
  | 0 => .ok (Array.replicate B.n_outputs .empty)
  | t + 1 => do
    let props ← markPackets B output heaps t
    RsFntObj.encode_post_process B output props (t * output.size) (heaps t)

/-- restore `T` packets of words read from fragments; `heaps t` is the memory when packet `t` has been read -/
def restorePackets (E : FecB) (props : Array Properties) (words : Bufs) (heaps : Nat → Heap) : Nat → CtxB → Res (CtxB × List Heap)
  | 0, C => .ok (C, [])
  | t + 1, C => do
    let (C, l) ← restorePackets E props words heaps t C
    let (C, H) ← E.decode_prepare C props (t * E.base.pkt_size) words (heaps t)
    pure (C, l ++ [H])

/-- C24, packets of any size: `sym f j` is the symbol at location `j` of fragment `f`, in `0 .. 2^(8w)`.  The memory after the encoding
of packet `t` holds the symbols `sym f (t pkt) ..`.  The memory after reading packet `t` of the fragments `ids` holds the words as they
were stored, `sym f j` modulo `2^(8w)`.  With the properties recorded by the encoder, sorted as the decoding context sorts them, restoring
gives back the symbols.  In systematic mode the fragments below `n_data` are data: their words are left as they are. -/
theorem C24_marks_packets {E : FecB} {w pkt T N : Nat} {sym : Nat → Nat → Nat} {output words : Bufs} {enc dec : Nat → Heap} {C : CtxB}
    (hcard : E.base.F.card = 2 ^ (8 * w) + 1) (hp : E.base.pkt_size = pkt) (hN : E.base.n_outputs = N)
    (hv : ∀ f j, sym f j ≤ 2 ^ (8 * w))
    (ho : output.size = pkt) (hon : N ≤ output.n) (hom : N ≤ output.mem.size) (hok : ∀ t, t < T → Okb pkt (enc t) output.mem)
    (henc : ∀ t f c, t < T → f < N → c < pkt → el (enc t) (gt output.mem f) c = sym f (t * pkt + c))
    (hwn : words.n = E.base.n_data) (hwm : words.mem.size = E.base.n_data) (hwi : InjPtr words.mem)
    (hwo : ∀ t, t < T → Okb pkt (dec t) words.mem)
    (hids : C.fragments_ids.size = E.base.n_data)
    (hinj : ∀ i j, i < E.base.n_data → j < E.base.n_data → gt C.fragments_ids i = gt C.fragments_ids j → i = j)
    (hlt : ∀ i, i < E.base.n_data → gt C.fragments_ids i < if E.base.sys then E.base.n_data + N else N)
    (hpi : C.props_indices = Array.replicate N 0)
    (hdec : ∀ t i c f, t < T → i < E.base.n_data → c < pkt →
      gt C.fragments_ids i = (if E.base.sys then E.base.n_data + f else f) →
      el (dec t) (gt words.mem i) c = sym f (t * pkt + c) % 2 ^ (8 * w)) :
    ∃ props C' l, markPackets E.base output enc T = .ok props ∧
      restorePackets E (props.map Properties.sort) words dec T C = .ok (C', l) ∧ l.length = T ∧
      ∀ t, t < T → Frame words.mem (dec t) (l.getD t #[]) ∧ ∀ i c, i < E.base.n_data → c < pkt →
        (∀ f, gt C.fragments_ids i = (if E.base.sys then E.base.n_data + f else f) →
          el (l.getD t #[]) (gt words.mem i) c = sym f (t * pkt + c)) ∧
        (E.base.sys = true → gt C.fragments_ids i < E.base.n_data →
          el (l.getD t #[]) (gt words.mem i) c = el (dec t) (gt words.mem i) c) := by
  set mkf : Nat → Nat → Option Nat := fun f j => if sym f j = 2 ^ (8 * w) then some OOR_MARK else none with hmkf
  set k := E.base.n_data with hk
  have hmark : ∀ t, t ≤ T → ∃ props, markPackets E.base output enc t = .ok props ∧ props.size = N ∧
      ∀ f, f < N → gt props f = ⟨marksOf (mkf f) (t * pkt)⟩ := by
    intro t
    induction t with
    | zero =>
      intro _
      refine ⟨_, rfl, by simp [hN], fun f hf => ?_⟩
      rw [gt_replicate (by omega), Nat.zero_mul]; rfl
    | succ t ih =>
      intro ht
      obtain ⟨props, e, s, h⟩ := ih (by omega)
      obtain ⟨props', e', s', h'⟩ := RsFnt.post_process_buf_spec (B := E.base) (e := 8 * w) (off := t * pkt) (pkt := pkt) hcard
        (output := output) (props := props) (H := enc t) (by omega) (by omega) ho (by omega) (hok t (by omega))
        (fun f hf c hc => by rw [henc t f c (by omega) (by omega) hc]; exact hv _ _)
      refine ⟨props', by rw [markPackets, e, ok_bind, ho, e'], by omega, fun f hf => ?_⟩
      rw [h' f (by omega), h f hf, show (t + 1) * pkt = t * pkt + pkt from Nat.succ_mul _ _, marksOf_add]
      congr 3
      apply marksOf_congr
      intro c hc
      simp only [hmkf]
      rw [henc t f c (by omega) hf hc]
  obtain ⟨props, ep, sp, hprops⟩ := hmark T le_rfl
  have hsort : ∀ f, f < N → gt (props.map Properties.sort) f = ⟨marksOf (mkf f) (T * pkt)⟩ := by
    intro f hf
    rw [gt_map (by omega), hprops f hf, sort_marksOf]
  have hprop : ∀ i f, i < k → propOf E.base.sys k (gt C.fragments_ids i) = some f → f < N := by
    intro i f hi h
    have := hlt i hi
    unfold propOf at h
    cases hsys : E.base.sys <;> simp only [hsys, Bool.false_eq_true, if_false, if_true] at h this
    · rw [← Option.some.inj h]; exact this
    · split at h
      · cases h
      · rw [← Option.some.inj h]; omega
  have key : ∀ t, t ≤ T → ∃ pi l, restorePackets E (props.map Properties.sort) words dec t C = .ok ({ C with props_indices := pi }, l) ∧
      l.length = t ∧ pi.size = N ∧
      (∀ i f, i < k → propOf E.base.sys k (gt C.fragments_ids i) = some f → gt pi f = (marksOf (mkf f) (t * pkt)).length) ∧
      ∀ s, s < t → Frame words.mem (dec s) (l.getD s #[]) ∧ ∀ i c, i < k → c < pkt →
        el (l.getD s #[]) (gt words.mem i) c = match propOf E.base.sys k (gt C.fragments_ids i) with
          | none => el (dec s) (gt words.mem i) c
          | some f => if (mkf f (s * pkt + c)).isSome then 2 ^ (8 * w) else el (dec s) (gt words.mem i) c := by
    intro t
    induction t with
    | zero =>
      intro _
      refine ⟨C.props_indices, [], rfl, rfl, by simp [hpi], fun i f hi h => ?_, by simp⟩
      rw [hpi, gt_replicate (hprop i f hi h), Nat.zero_mul]; rfl
    | succ t ih =>
      intro ht
      obtain ⟨pi, l, e, sl, spi, hpi', hl⟩ := ih (by omega)
      have htp : t * pkt + pkt ≤ T * pkt := by
        rw [← Nat.succ_mul]; exact Nat.mul_le_mul_right _ ht
      obtain ⟨pi2, H2, e2, s2, f2, _, i2, g2⟩ := FecB.decode_prepare_spec (B := E) (C := { C with props_indices := pi })
        (props := props.map Properties.sort) (off := t * pkt) (N := N) (pkt := pkt) (words := words) (H := dec t)
        hp ⟨hids, hinj, hlt⟩ (by simp [sp]) spi
        (fun i f hi h => by
          have hs := hsort f (hprop i f hi h)
          exact ⟨by unfold Properties.Sorted; rw [hs]; exact marksOf_pairwise _ _,
            by rw [hpi' i f hi h, marksOf_below (T := T * pkt) (by omega) (by rw [hs])]⟩)
        hwn hwm hwi (hwo t (by omega))
      refine ⟨pi2, l ++ [H2], ?_, by simp [sl], s2, fun i f hi h => ?_, ?_⟩
      · rw [restorePackets, e, ok_bind]
        simp only
        rw [hp, e2, ok_bind]
        rfl
      · rw [i2 i f hi h, marksOf_below (T := T * pkt) htp (by rw [hsort f (hprop i f hi h)]),
          show (t + 1) * pkt = t * pkt + pkt from Nat.succ_mul _ _]
      · intro s hs
        by_cases hst : s < t
        · have : (l ++ [H2]).getD s #[] = l.getD s #[] := by
            simp only [List.getD_eq_getElem?_getD]
            rw [List.getElem?_append_left (by omega)]
          rw [this]
          exact hl s hst
        · have hse : s = t := by omega
          subst hse
          have : (l ++ [H2]).getD s #[] = H2 := by
            simp only [List.getD_eq_getElem?_getD]
            rw [List.getElem?_append_right (by omega), sl]; simp
          rw [this]
          refine ⟨f2, fun i c hi hc => ?_⟩
          rw [g2 i hi c hc, hcard, Nat.add_sub_cancel]
          simp only
          cases hpf : propOf E.base.sys k (gt C.fragments_ids i) with
          | none => rfl
          | some f =>
            simp only
            rw [hsort f (hprop i f hi hpf)]
            by_cases hm : (mkf f (s * pkt + c)).isSome
            · obtain ⟨m, hmm⟩ := Option.isSome_iff_exists.mp hm
              have hmo : m = OOR_MARK := by
                simp only [hmkf] at hmm
                split at hmm
                · exact (Option.some.inj hmm).symm
                · cases hmm
              rw [if_pos hm, if_pos (marksOf_mem (by omega) (hmo ▸ hmm))]
            · rw [if_neg hm, if_neg (fun h => hm (by rw [(marksOf_lt _ _ _ h).2]; rfl))]
  obtain ⟨pi, l, e, sl, _, _, h⟩ := key T le_rfl
  refine ⟨props, _, l, ep, e, sl, fun t ht => ⟨(h t ht).1, fun i c hi hc => ⟨fun f hf => ?_, fun hsys hlt' => ?_⟩⟩⟩
  · rw [(h t ht).2 i c hi hc]
    have hpf : propOf E.base.sys k (gt C.fragments_ids i) = some f := by
      unfold propOf
      rw [hf]
      cases hsys : E.base.sys
      · simp
      · simp only [if_true]
        rw [if_neg (by omega), Nat.add_sub_cancel_left]
    rw [hpf]
    have hle := hv f (t * pkt + c)
    by_cases hm : sym f (t * pkt + c) = 2 ^ (8 * w)
    · simp only [hmkf, hm, if_true, Option.isSome_some]
    · simp only [hmkf, hm, if_false, Option.isSome_none, Bool.false_eq_true]
      rw [hdec t i c f ht hi hc hf, Nat.mod_eq_of_lt (by omega)]
  · rw [(h t ht).2 i c hi hc]
    unfold propOf
    rw [hsys, if_pos rfl, if_pos hlt']

/-! ## C41 -/

/-- the object has as many pointers as it says -/
def Whole (v : Bufs) : Prop := v.mem.size = v.n

/-- C41, slice inside the source: entry `i` of the view is the very block of entry `begin + i` of the source; nothing is allocated. -/
theorem C41_slice (H : Heap) {vec : Bufs} {b e : Nat} (hv : Whole vec) (hb : b < e) (he : e ≤ vec.n) :
    ∃ v, Bufs.slice H vec b e = .ok (H, v) ∧ Whole v ∧ v.n = e - b ∧ v.size = vec.size ∧
      ∀ i, i < e - b → gt v.mem i = gt vec.mem (b + i) := by
  unfold Whole at hv
  refine ⟨⟨vec.mem.extract b e, e - b, vec.size⟩, ?_, by simp [Whole]; omega, rfl, rfl, fun i hi => gt_extract hi (by omega)⟩
  unfold Bufs.slice
  simp only [cassert, hb, decide_true, if_true, ok_bind]
  rw [if_pos he, if_pos (by omega)]
  rfl

/-- C41, slice that ends beyond its source: the entries beyond it are one new block of zeros. -/
theorem C41_slice_extended (H : Heap) {vec : Bufs} {b e : Nat} (hv : Whole vec) (hb : b ≤ vec.n) (he : vec.n < e) :
    ∃ H' v, Bufs.slice H vec b e = .ok (H', v) ∧ Whole v ∧ v.n = e - b ∧ v.size = vec.size ∧
      H'.size = H.size + 1 ∧ (∀ q, q < H.size → gt H' q = gt H q) ∧ gt H' H.size = Array.replicate vec.size 0 ∧
      ∀ i, i < e - b → gt v.mem i = if b + i < vec.n then gt vec.mem (b + i) else H.size := by
  unfold Whole at hv
  have z := zeroBlock_spec H vec.size
  refine ⟨_, ⟨vec.mem.extract b vec.mem.size ++ Array.replicate (e - vec.n) H.size, e - b, vec.size⟩, ?_, by simp [Whole]; omega,
    rfl, rfl, z.2.1, z.1.same, z.2.2, fun i hi => ?_⟩
  · unfold Bufs.slice
    simp only [cassert, show b < e by omega, decide_true, if_true, ok_bind]
    rw [if_neg (by omega), if_pos (by omega)]
    rfl
  · simp only
    rw [gt_append]
    have hs : (vec.mem.extract b vec.mem.size).size = vec.n - b := by simp; omega
    rw [hs]
    by_cases h : b + i < vec.n
    · rw [if_pos (by omega), if_pos h, gt_extract (by omega) le_rfl]
    · rw [if_neg (by omega), if_neg h, gt_replicate (by omega)]

/-- A slice that begins beyond the end of its source is undefined behaviour. -/
theorem C41_slice_beyond_end_undefined (H : Heap) {vec : Bufs} {b e : Nat} (hv : Whole vec) (hb : vec.n < b) (he : b < e) :
    Bufs.slice H vec b e = ub := by
  unfold Whole at hv
  unfold Bufs.slice
  simp only [cassert, he, decide_true, if_true, ok_bind]
  rw [if_neg (by omega), if_neg (by omega)]

/-- C41, concatenation -/
theorem C41_concat {a b : Bufs} (ha : Whole a) (hb : Whole b) (hs : a.size = b.size) :
    ∃ v, Bufs.concat a b = .ok v ∧ Whole v ∧ v.n = a.n + b.n ∧ v.size = a.size ∧
      (∀ i, i < a.n → gt v.mem i = gt a.mem i) ∧ ∀ i, i < b.n → gt v.mem (a.n + i) = gt b.mem i := by
  unfold Whole at ha hb
  refine ⟨_, Bufs.concat_spec hs, by simp [Whole, ha, hb], rfl, rfl, fun i hi => ?_, fun i hi => ?_⟩
  · simp only; rw [gt_append, if_pos (by omega)]
  · simp only; rw [gt_append, if_neg (by omega), ha, Nat.add_sub_cancel_left]

/-- C41, shuffle into a longer view: entry `map i` is entry `i` of the source and the others are one new block of zeros.
Missing: views not longer than their source, see the next theorem. -/
theorem C41_shuffle_partial (H : Heap) {vec : Bufs} {map : Array Nat} {n : Nat} (hv : Whole vec) (hn : vec.n < n) (hm : map.size ≤ vec.n)
    (hlt : ∀ i, i < map.size → gt map i < n) (hinj : ∀ i j, i < map.size → j < map.size → gt map i = gt map j → i = j) :
    ∃ H' v, Bufs.shuffle H vec map n = .ok (H', v) ∧ Whole v ∧ v.n = n ∧ v.size = vec.size ∧
      H'.size = H.size + 1 ∧ (∀ q, q < H.size → gt H' q = gt H q) ∧ gt H' H.size = Array.replicate vec.size 0 ∧
      (∀ i, i < map.size → gt v.mem (gt map i) = gt vec.mem i) ∧
      ∀ j, j < n → (∀ i, i < map.size → gt map i ≠ j) → gt v.mem j = H.size := by
  unfold Whole at hv
  have z := zeroBlock_spec H vec.size
  obtain ⟨m, e, s, h1, h2⟩ := Bufs.shuffle_spec (H := H) hn (by omega) (by omega) hlt hinj
  exact ⟨_, _, e, s, rfl, rfl, z.2.1, z.1.same, z.2.2, h1, h2⟩

/-- C41 is false for a shuffled view not longer than its source: the vector of pointers is reserved but never resized, and the
first write to it is out of range. -/
theorem C41_shuffle_not_longer_undefined (H : Heap) {vec : Bufs} {map : Array Nat} {n : Nat} (hv : Whole vec) (hn : n ≤ vec.n)
    (hm : map.size ≤ n) (h0 : 0 < map.size) : Bufs.shuffle H vec map n = ub := by
  unfold Whole at hv
  obtain ⟨t, ht⟩ : ∃ t, map.size = t + 1 := ⟨map.size - 1, by omega⟩
  have hw : ∀ j q, wr (#[] : Array Nat) j q = ub := fun j q => by simp [wr]
  unfold Bufs.shuffle
  simp only [cassert, hm, decide_true, if_true, ok_bind]
  rw [if_pos hn]
  simp only
  have : forN map.size (#[] : Array Nat) (fun i mem => do
      let j ← rd map i
      let p ← rd vec.mem i
      wr mem j p) = ub := by
    have h : ∀ t, forN (t + 1) (#[] : Array Nat) (fun i mem => do
        let j ← rd map i
        let p ← rd vec.mem i
        wr mem j p) = ub := by
      intro t
      induction t with
      | zero =>
        show (do
          let j ← rd map 0
          let p ← rd vec.mem 0
          wr (#[] : Array Nat) j p) = ub
        rw [rd_gt (a := map) h0, ok_bind, rd_gt (a := vec.mem) (by omega), ok_bind, hw]
      | succ t ih => rw [forN, ih]; rfl
    rw [ht]; exact h t
  rw [this]
  rfl

/-- C41, deep copy of the first `m` buffers (all of them when `n = 0`), padded with zero buffers: every buffer is a new block. -/
theorem C41_copyOf (junk : Nat → Nat → Nat) {H : Heap} {vec : Bufs} (n : Nat) (hv : Whole vec) (ho : Okb vec.size H vec.mem) :
    ∃ H' v, Bufs.copyOf junk H vec n = .ok (H', v) ∧ Whole v ∧ v.n = (if n = 0 then vec.n else n) ∧ v.size = vec.size ∧
      (∀ q, q < H.size → gt H' q = gt H q) ∧ InjPtr v.mem ∧ Okb vec.size H' v.mem ∧
      ∀ i, i < v.n → H.size ≤ gt v.mem i ∧
        gt H' (gt v.mem i) = if i < vec.n then gt H (gt vec.mem i) else Array.replicate vec.size 0 := by
  unfold Whole at hv
  set m := if n = 0 then vec.n else n with hm
  obtain ⟨H1, mem, e, s1, s2, s3, s4, s5, s6⟩ := Bufs.full_spec junk H m vec.size
  have hlen : (if m ≤ vec.n then m else vec.n) ≤ m := by split <;> omega
  have hlen' : (if m ≤ vec.n then m else vec.n) ≤ vec.n := by split <;> omega
  obtain ⟨H2, e2, f2, g2, o2⟩ := rowLoop (dest := mem) (pkt := vec.size) (m := if m ≤ vec.n then m else vec.n) (H := H1)
    (P := fun i _ x => x = gt H (gt vec.mem i))
    (body := fun i H => do
      let s ← vec.get i
      let d ← rd mem i
      Heap.cpy H d s vec.size) s6 (by omega) (fun _ _ _ _ _ _ h => h) (by
      intro i H' hi hsz h
      have h1 := ho i (by omega)
      have h2 := s5 i (by omega)
      have hne : ∀ j, j < i → gt mem j ≠ gt vec.mem i := fun j hj he => by
        rw [s2 j (by omega)] at he; omega
      have hself : gt H' (gt mem i) = gt H1 (gt mem i) := h _ (fun j hj he => by
        have := s6 j i (by omega) (by omega) he; omega)
      have hsrc : gt H' (gt vec.mem i) = gt H (gt vec.mem i) := by rw [h _ hne, s4.same _ h1.1]
      obtain ⟨H'', e3, o3, g3⟩ := Heap.cpy_spec (H := H') (d := gt mem i) (s := gt vec.mem i) (pkt := vec.size) (by omega)
        (by have := s4.le; omega) (by rw [hself]; exact h2.2) (by rw [hsrc]; exact h1.2)
      exact ⟨H'', by rw [Bufs.get_ok (by omega) (by omega), ok_bind, rd_gt (by omega), ok_bind, e3], o3,
        by rw [g3, hsrc]; exact h1.2, by rw [g3, hsrc]⟩)
  have hfill : ∃ H3, (if m > vec.n then
      forStep vec.n m 1 H2 (fun i H => do
        let d ← rd mem i
        Heap.fill H d vec.size 0)
    else pure H2) = .ok H3 ∧ Frame mem H1 H3 ∧ ∀ i, i < m → gt H3 (gt mem i) =
      if i < vec.n then gt H (gt vec.mem i) else Array.replicate vec.size 0 := by
    by_cases hmn : m > vec.n
    · rw [if_pos hmn]
      rw [if_neg (by omega)] at g2
      obtain ⟨H3, e3, i1, i2, i3⟩ := forStep_inv (a := vec.n) (b := m) (st := 1) (s := H2) (f := fun i H => do
          let d ← rd mem i
          Heap.fill H d vec.size 0)
        (I := fun t H' => H'.size = H2.size ∧ (∀ q, (∀ i, i < m → gt mem i ≠ q) → gt H' q = gt H2 q) ∧
          ∀ i, i < m → gt H' (gt mem i) = if i < vec.n then gt H (gt vec.mem i) else if i < vec.n + t then Array.replicate vec.size 0
            else gt H2 (gt mem i)) Nat.one_pos
        ⟨rfl, fun _ _ => rfl, fun i hi => by
          split
          · rename_i h; exact (g2 i h).2
          · rename_i h; rw [if_neg (by omega)]⟩ (by
          rintro t H' ht ⟨i1, i2, i3⟩
          simp only [mul_one] at ht ⊢
          have hid := s5 (vec.n + t) (by omega)
          have hsz : (gt H' (gt mem (vec.n + t))).size = vec.size := by
            rw [i3 _ ht, if_neg (by omega), if_neg (by omega), o2 _ (fun j hj he => by
              rw [if_neg (by omega)] at hj
              have := s6 j (vec.n + t) (by omega) (by omega) he; omega)]
            exact hid.2
          obtain ⟨H'', e4, o4, g4⟩ := Heap.fill_spec (H := H') (d := gt mem (vec.n + t)) (pkt := vec.size) (x := 0)
            (by rw [i1, f2.size]; exact hid.1) hsz
          refine ⟨H'', by rw [rd_gt (by omega), ok_bind, e4], by rw [o4.1, i1], fun q hq => ?_, fun i hi => ?_⟩
          · rw [o4.2 q (fun h => hq _ ht h.symm), i2 q hq]
          · by_cases hit : i = vec.n + t
            · subst hit
              rw [g4, if_neg (by omega), if_pos (by omega)]
            · rw [o4.2 _ (fun h => hit (s6 i _ (by omega) (by omega) h)), i3 i hi]
              split
              · rfl
              · by_cases h : i < vec.n + t
                · rw [if_pos h, if_pos (by omega)]
                · rw [if_neg h, if_neg (by omega)])
      refine ⟨H3, e3, ⟨by rw [i1, f2.size], fun q hq => by rw [i2 q (fun i hi => hq i (by omega)), f2.out q hq]⟩, fun i hi => ?_⟩
      rw [i3 i hi]
      split
      · rfl
      · rw [if_pos (by rw [stride]; omega)]
    · rw [if_neg hmn]
      rw [if_pos (by omega)] at g2
      exact ⟨H2, rfl, f2, fun i hi => by rw [if_pos (by omega)]; exact (g2 i hi).2⟩
  obtain ⟨H3, e3, f3, g3⟩ := hfill
  refine ⟨H3, ⟨mem, m, vec.size⟩, ?_, s1, rfl, rfl, fun q hq => ?_, s6, fun i hi => ?_, fun i hi => ?_⟩
  · unfold Bufs.copyOf
    simp only [← hm, e]
    rw [e2, ok_bind, e3, ok_bind]
    rfl
  · rw [f3.out q (fun i hi he => by rw [s2 i (by omega)] at he; omega), s4.same q hq]
  · have hi' : i < m := by rw [← s1]; exact hi
    rw [f3.size]
    refine ⟨(s5 i hi).1, ?_⟩
    rw [g3 i hi']
    split
    · rename_i h; exact (ho i (by omega)).2
    · simp
  · exact ⟨by simp only; rw [s2 i hi]; omega, g3 i hi⟩

/-- C41: `copy` copies every buffer; the two objects may share buffers entry by entry. -/
theorem C41_copy {H : Heap} {B v : Bufs} (hB : Whole B) (hv : Whole v) (hn : v.n = B.n) (hs : v.size = B.size) (hinj : InjPtr B.mem)
    (hal : ∀ i j, i < B.n → j < i → gt v.mem i ≠ gt B.mem j) (h1 : Okb B.size H B.mem) (h2 : Okb B.size H v.mem) :
    ∃ H', Bufs.copy H B v = .ok H' ∧ Frame B.mem H H' ∧ ∀ i, i < B.n → gt H' (gt B.mem i) = gt H (gt v.mem i) := by
  unfold Whole at hB hv
  obtain ⟨H', e, f, g, _⟩ := rowLoop (dest := B.mem) (pkt := B.size) (m := B.n) (H := H)
    (P := fun i H x => x = gt H (gt v.mem i))
    (body := fun i H => do
      let s ← v.get i
      let d ← rd B.mem i
      Heap.cpy H d s v.size) hinj (by omega) (by
      intro i H1 H2 x hi h hx
      rw [hx, h _ (fun j hj => (hal i j hi hj).symm)]) (by
      intro i H1 hi hsz h
      have e1 : gt H1 (gt v.mem i) = gt H (gt v.mem i) := h _ (fun j hj => (hal i j hi hj).symm)
      have e2 : gt H1 (gt B.mem i) = gt H (gt B.mem i) := h _ (fun j hj he => by
        have := hinj j i (by omega) (by omega) he; omega)
      have b1 := h1 i (by omega)
      have b2 := h2 i (by omega)
      obtain ⟨H2, e3, o, g⟩ := Heap.cpy_spec (H := H1) (d := gt B.mem i) (s := gt v.mem i) (pkt := v.size) (by omega) (by omega)
        (by rw [e2, hs]; exact b1.2) (by rw [e1, hs]; exact b2.2)
      exact ⟨H2, by rw [Bufs.get_ok (by omega) (by omega), ok_bind, rd_gt (by omega), ok_bind, e3], o,
        by rw [g, e1]; exact b2.2, g⟩)
  refine ⟨H', ?_, f, fun i hi => (g i hi).2⟩
  unfold Bufs.copy
  simp only [cassert, hn, hs.le, decide_true, if_true, ok_bind]
  exact e

/-- C41: `zero_fill` writes zero everywhere in the buffers of the object. -/
theorem C41_zero_fill {H : Heap} {B : Bufs} (hB : Whole B) (hinj : InjPtr B.mem) (h1 : Okb B.size H B.mem) :
    ∃ H', Bufs.zero_fill H B = .ok H' ∧ Frame B.mem H H' ∧ ∀ i, i < B.n → gt H' (gt B.mem i) = Array.replicate B.size 0 := by
  unfold Whole at hB
  obtain ⟨H', e, f, g, _⟩ := rowLoop (dest := B.mem) (pkt := B.size) (m := B.n) (H := H)
    (P := fun i H x => x = Array.replicate B.size 0)
    (body := fun i H => do
      let p ← rd B.mem i
      Heap.fill H p B.size 0) hinj (by omega) (fun _ _ _ _ _ _ h => h) (by
      intro i H1 hi hsz h
      have e2 : gt H1 (gt B.mem i) = gt H (gt B.mem i) := h _ (fun j hj he => by
        have := hinj j i (by omega) (by omega) he; omega)
      have b1 := h1 i (by omega)
      obtain ⟨H2, e3, o, g⟩ := Heap.fill_spec (H := H1) (d := gt B.mem i) (pkt := B.size) (x := 0) (by omega) (by rw [e2]; exact b1.2)
      exact ⟨H2, by rw [rd_gt (by omega), ok_bind, e3], o, by rw [g]; simp, g⟩)
  exact ⟨H', e, f, fun i hi => (g i hi).2⟩

/-- the first turns of the loop of `separate_even_odd` -/
theorem evenOdd_loop {B : Bufs} (hB : B.mem.size = B.n) {t : Nat} (ht : t ≤ B.n / 2) :
    ∃ m, forN t (Array.replicate B.n 0) (fun j m => do
      let a ← B.get (2 * j)
      let m ← wr m j a
      let b ← B.get (2 * j + 1)
      wr m (j + B.n / 2) b) = .ok m ∧ m.size = B.n ∧
      ∀ i, i < t → gt m i = gt B.mem (2 * i) ∧ gt m (i + B.n / 2) = gt B.mem (2 * i + 1) := by
  refine forN_inv (I := fun t (m : Array Nat) => m.size = B.n ∧ ∀ i, i < t → gt m i = gt B.mem (2 * i) ∧
      gt m (i + B.n / 2) = gt B.mem (2 * i + 1)) ⟨by simp, by simp⟩ (by
      rintro s m hs ⟨i1, i2⟩
      have hg : ∀ q, gt ((m.setIfInBounds s (gt B.mem (2 * s))).setIfInBounds (s + B.n / 2) (gt B.mem (2 * s + 1))) q
          = if q = s + B.n / 2 then gt B.mem (2 * s + 1) else if q = s then gt B.mem (2 * s) else gt m q := by
        intro q
        rw [gt_set (by simp; omega), gt_set (by omega)]
      refine ⟨_, by rw [Bufs.get_ok (by omega) (by omega), ok_bind, wr_ok (by omega), ok_bind, Bufs.get_ok (by omega) (by omega), ok_bind,
        wr_ok (by simp; omega)], by simp [i1], fun i hi => ?_⟩
      rw [hg, hg, if_neg (by omega)]
      by_cases hit : i = s
      · subst hit; rw [if_pos rfl, if_pos rfl]; exact ⟨rfl, rfl⟩
      · rw [if_neg hit, if_neg (by omega), if_neg (by omega)]; exact i2 i (by omega))

/-- C41: `separate_even_odd` puts the buffers at even positions first, for an even number of buffers. -/
theorem C41_separate_even_odd_partial {B : Bufs} (hB : Whole B) (h : B.n % 2 = 0) :
    ∃ v, Bufs.separate_even_odd B = .ok v ∧ Whole v ∧ v.n = B.n ∧ v.size = B.size ∧
      ∀ i, i < B.n / 2 → gt v.mem i = gt B.mem (2 * i) ∧ gt v.mem (i + B.n / 2) = gt B.mem (2 * i + 1) := by
  unfold Whole at hB
  have hhalf : (B.n + 1) / 2 = B.n / 2 := by omega
  obtain ⟨m, e, i1, i2⟩ := evenOdd_loop hB (t := (B.n + 1) / 2) (by omega)
  obtain ⟨m', e', j1, j2⟩ := forN_inv (n := B.n) (s := B.mem) (f := fun i mem => do
      let x ← rd m i
      wr mem i x)
    (I := fun t (r : Array Nat) => r.size = B.n ∧ ∀ i, i < t → gt r i = gt m i)
    ⟨hB, by simp⟩ (by
      rintro t r ht ⟨j1, j2⟩
      refine ⟨_, by rw [rd_gt (a := m) (by omega), ok_bind, wr_ok (by omega)], by simp [j1], fun i hi => ?_⟩
      rw [gt_set (by omega)]
      by_cases hit : i = t
      · subst hit; rw [if_pos rfl]
      · rw [if_neg hit]; exact j2 i (by omega))
  refine ⟨{ B with mem := m' }, ?_, j1, rfl, rfl, fun i hi => ?_⟩
  · unfold Bufs.separate_even_odd
    simp only
    rw [e, ok_bind, e', ok_bind]
    rfl
  · have := i2 i (by omega)
    rw [← j2 i (by omega), ← j2 (i + B.n / 2) (by omega)] at this
    exact this

/-- For an odd number of buffers the last turn asks for a buffer that does not exist. -/
theorem C41_separate_odd_fails {B : Bufs} (hB : Whole B) (h : B.n % 2 = 1) : Bufs.separate_even_odd B = .error .assertFail := by
  unfold Whole at hB
  obtain ⟨m, e, i1, i2⟩ := evenOdd_loop hB (t := B.n / 2) le_rfl
  unfold Bufs.separate_even_odd
  simp only
  rw [show (B.n + 1) / 2 = B.n / 2 + 1 by omega, forN, e, ok_bind, Bufs.get_ok (by omega) (by omega), ok_bind, wr_ok (by omega),
    ok_bind]
  have : B.get (2 * (B.n / 2) + 1) = .error .assertFail := by
    unfold Bufs.get
    simp only [cassert, show ¬ 2 * (B.n / 2) + 1 < B.n by omega, decide_false, Bool.false_eq_true, if_false]
    rfl
  rw [this]
  rfl

/-- C41: two objects are equal when they have the same shape and the same contents. -/
theorem C41_eq {H : Heap} {l r : Bufs} (hl : Whole l) (hr : Whole r) (h1 : Okb l.size H l.mem) (h2 : Okb r.size H r.mem) :
    ∃ b, Bufs.eq H l r = .ok b ∧ (b = true ↔ l.n = r.n ∧ l.size = r.size ∧
      ∀ i c, i < l.n → c < l.size → el H (gt l.mem i) c = el H (gt r.mem i) c) := by
  unfold Whole at hl hr
  unfold Bufs.eq
  by_cases hne : l.n ≠ r.n ∨ l.size ≠ r.size
  · rw [if_pos hne]
    exact ⟨false, rfl, by simp; intro a b; omega⟩
  rw [if_neg hne]
  have hn : l.n = r.n := by omega
  have hz : l.size = r.size := by omega
  have hel : ∀ p q, p < H.size → q < H.size → (gt H p).size = l.size → (gt H q).size = l.size → ∀ k j, j + k = l.size →
      ∃ b, Bufs.eqElems H p q k j = .ok b ∧ (b = true ↔ ∀ c, j ≤ c → c < l.size → el H p c = el H q c) := by
    intro p q hp hq sp sq k
    induction k with
    | zero => intro j hj; exact ⟨true, rfl, by simp; intro c a b; omega⟩
    | succ k ih =>
      intro j hj
      obtain ⟨b, e, hb⟩ := ih (j + 1) (by omega)
      unfold Bufs.eqElems
      rw [Heap.rdEl_ok hp (by omega), ok_bind, Heap.rdEl_ok hq (by omega), ok_bind]
      by_cases hx : gt (gt H p) j = gt (gt H q) j
      · rw [if_neg (not_not.mpr hx), e]
        refine ⟨b, rfl, hb.trans ⟨fun h c hc hc' => ?_, fun h c hc hc' => h c (by omega) hc'⟩⟩
        rcases Nat.eq_or_lt_of_le hc with rfl | hlt
        · exact hx
        · exact h c hlt hc'
      · rw [if_pos hx]
        exact ⟨false, rfl, by simp; exact ⟨j, le_rfl, by omega, hx⟩⟩
  have hbufs : ∀ k i, i + k = l.n → ∃ b, Bufs.eqBufs H l r k i = .ok b ∧ (b = true ↔ ∀ t c, i ≤ t → t < l.n → c < l.size →
      el H (gt l.mem t) c = el H (gt r.mem t) c) := by
    intro k
    induction k with
    | zero => intro i hi; exact ⟨true, rfl, by simp; intro t c a b; omega⟩
    | succ k ih =>
      intro i hi
      obtain ⟨b, e, hb⟩ := ih (i + 1) (by omega)
      have b1 := h1 i (by omega)
      have b2 := h2 i (by omega)
      obtain ⟨b', e', hb'⟩ := hel (gt l.mem i) (gt r.mem i) b1.1 b2.1 b1.2 (by rw [b2.2, hz]) l.size 0 (by omega)
      unfold Bufs.eqBufs
      rw [Bufs.get_ok (by omega) (by omega), ok_bind, Bufs.get_ok (by omega) (by omega), ok_bind, e', ok_bind]
      cases b' with
      | true =>
        rw [if_pos rfl, e]
        have h' := hb'.mp rfl
        refine ⟨b, rfl, hb.trans ⟨fun h t c ht ht' hc => ?_, fun h t c ht ht' hc => h t c (by omega) ht' hc⟩⟩
        rcases Nat.eq_or_lt_of_le ht with rfl | hlt
        · exact h' c (by omega) hc
        · exact h t c hlt ht' hc
      | false =>
        rw [if_neg (by simp)]
        refine ⟨false, rfl, ?_⟩
        constructor
        · simp
        · intro h
          exact hb'.mpr (fun c _ hc => h i c le_rfl (by omega) hc)
  obtain ⟨b, e, hb⟩ := hbufs l.n 0 (by omega)
  exact ⟨b, e, hb.trans ⟨fun h => ⟨hn, hz, fun i c hi hc => h i c (by omega) hi hc⟩, fun h t c _ ht hc => h.2.2 t c ht hc⟩⟩

/-! ## concrete cases -/

/-- three blocks of two words -/
def heap1 : Heap := #[#[256, 3], #[0, 200], #[7, 7]]

theorem heap1_ok (m : Array Nat) (h : ∀ x ∈ m.toList, x < 3) : Okb 2 heap1 m := by
  intro i hi
  have : gt m i < 3 := h _ (by rw [gt_eq hi]; exact Array.getElem_mem_toList hi)
  generalize gt m i = q at this
  interval_cases q <;> decide

/-- C13 in the field of 257 elements, with coefficients 256, 1 and 0, in place -/
example : ∃ H', BufOps.mul_vec_to_vecp O257.gf #[256, 1, 0] ⟨#[0, 1, 2], 3, 2⟩ ⟨#[0, 1, 2], 3, 2⟩ heap1 = .ok H' ∧
    H' = #[#[1, 254], #[0, 200], #[0, 0]] := ⟨_, by decide +kernel, rfl⟩

example : O257.ring.Fits ∧ InjPtr #[0, 1, 2] ∧ (∀ i j, i < 3 → j < i → gt #[0, 1, 2] i ≠ gt #[0, 1, 2] j) ∧
    ∀ i c, i < 3 → c < 2 → el heap1 (gt #[0, 1, 2] i) c < 257 := by
  refine ⟨isPrimeField257.fits, ?_, ?_, ?_⟩
  · intro i j hi hj
    have hi' : i < 3 := hi
    have hj' : j < 3 := hj
    interval_cases i <;> interval_cases j <;> decide
  · intro i j hi hj
    interval_cases i <;> interval_cases j <;> decide
  · intro i c hi hc
    interval_cases i <;> interval_cases c <;> decide

/-- C19: two packets in, four out -/
example : Elems 257 2 heap1 #[0, 1] ∧ Okb 2 (heap1 ++ heap1) #[2, 3, 4, 5] ∧ Disj #[2, 3, 4, 5] #[0, 1] := by
  refine ⟨⟨heap1_ok _ (by decide), ?_⟩, ?_, ?_⟩
  · intro j c hj hc
    have hj' : j < 2 := hj
    interval_cases j <;> interval_cases c <;> decide
  · intro i hi
    have hi' : i < 4 := hi
    interval_cases i <;> decide
  · intro i j hi hj
    have hi' : i < 4 := hi
    have hj' : j < 2 := hj
    interval_cases i <;> interval_cases j <;> decide

/-- C41: a shuffled view of two buffers in five -/
example : ∃ H' v, Bufs.shuffle heap1 ⟨#[0, 1], 2, 2⟩ #[3, 1] 5 = .ok (H', v) ∧ v.mem = #[3, 1, 3, 0, 3] := ⟨_, _, rfl, rfl⟩

example : Bufs.slice heap1 ⟨#[0, 1, 2], 3, 2⟩ 1 5 = .ok (heap1.push #[0, 0], ⟨#[1, 2, 3, 3], 4, 2⟩) := rfl

end Quad.Props
