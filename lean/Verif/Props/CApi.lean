import Verif.Lemmas.CApiRec
import Verif.Lemmas.CApiMarks

/-!
# C37-C40: the C interface

The vocabulary is in `Verif/Spec/CApi.lean`: `Mem` (the caller's blocks), `EncodedC` (what a successful `quadiron_fnt32_encode` left of
them), `Lost` (some of them were lost), `payload` (the words of a block), `Reachable` (an object after any calls).  Block sizes are
below 4 GiB.
-/

namespace Quad.Props
open Quad Quad.Spec Quad.CApi

variable {c : FntCode} {bs : Nat} {U U' V : Array (Array Nat)} {wanted missing : Array Bool} {R : RsFntObj} {C : CtxB} {H : Heap}

theorem pkt_pos : 0 < PKT_SIZE := by decide

/-- what an encoding is -/
theorem encodedC_facts (hc : c.Ok) (hb : c.b = 32) (h32 : bs < 2 ^ 32) (hU : c.Mem bs U) (hw : c.nOut ≤ wanted.size) (he : c.EncodedC bs U wanted U') :
    ∃ frags fprops, c.Encoded (c.dataOf bs U) frags fprops ∧ Fits c bs fprops ∧ Coded c bs U wanted frags fprops U' := by
  obtain ⟨R, C, H, junk, C', H', hr, e⟩ := he
  have hd := dataOf_data (c := c) (bs := bs) (fun i hi => hU.block i (by omega))
  obtain ⟨frags, fprops, _, _, _, h, _⟩ := C36_streams_unique_partial hc hd
  have hE := (h frags fprops).mpr ⟨rfl, rfl⟩
  obtain ⟨h1, h2, _⟩ := encode_zero hc hb pkt_pos hr hU hw hE (by omega) e
  exact ⟨frags, fprops, hE, h1, h2⟩

/-- `quadiron_fnt32_new` returns an object for the word sizes 1 and 2 and the null pointer for the others. -/
theorem C37_new (hc : c.Ok) (hb : c.b = 32) (hdb : c.db = 64) {simd : Option Nat} (hs : c.Builds simd) (mem : Nat → Nat) (junk : Nat → Nat → Nat) (H : Heap) :
    (∃ H' R, CApi.new simd c.w c.k c.m c.sys mem junk H = .ok (H', some R) ∧ c.Reachable PKT_SIZE R R.enc_context H') ∧
    ∀ w, w ≠ 1 → w ≠ 2 → CApi.new simd w c.k c.m c.sys mem junk H = .ok (H, none) := by
  obtain ⟨H', R, e⟩ := C23_new hc hs PKT_SIZE mem junk H
  refine ⟨⟨H', R, ?_, .new ⟨simd, hs, mem, junk, H, e⟩⟩, fun w h1 h2 => ?_⟩
  · unfold CApi.new
    rw [hb, hdb] at e
    rw [if_pos hc.hw, e, ok_bind]; rfl
  · unfold CApi.new
    rw [if_neg (by omega)]; rfl

/-- **C37, where the code has defined behaviour.**  A successful encode followed by the loss of any blocks such that at least `n_data` are
left, and a decode by any object with the same parameters: it returns 0 and every word of every data block is restored.  The bytes after
the last full word keep what they held before decoding, and the blocks after the data are unchanged.  Missing from C37: systematic codes with
fewer parities than data fragments, for which decode is undefined (`C39_decode_undefined`). -/
theorem C37_round_trip_partial (hc : c.Ok) (hb : c.b = 32) (h32 : bs < 2 ^ 32) (hU : c.Mem bs U) (hw : c.nOut ≤ wanted.size)
    (he : c.EncodedC bs U wanted U') (hl : c.Lost U' wanted V missing) (hV : ∀ i, i < c.k → Block bs (gt V i))
    (hn : c.k ≤ missing.toList.count false) (hkm : c.sys = true → c.k ≤ c.m) (hr : c.Reachable PKT_SIZE R C H) (mem : Nat → Nat)
    (junk : Nat → Nat → Nat) :
    ∃ V' H', decode R V missing bs mem junk H = .ok (0, V', H') ∧ V'.size = V.size ∧
      (∀ i, i < c.k → Block bs (gt V' i) ∧ payload c.w bs (gt V' i) = payload c.w bs (gt U i) ∧
        ∀ x, metadata_size bs + bs / c.w * c.w ≤ x → gt (gt V' i) x = gt (gt V i) x) ∧
      (∀ i, c.k ≤ i → gt V' i = gt V i) ∧ c.Reachable PKT_SIZE R C H' := by
  obtain ⟨frags, fprops, hE, _, hcd⟩ := encodedC_facts hc hb h32 hU hw he
  obtain ⟨V', H', e, h1, h2, h3, h4⟩ := decode_ok hc hb pkt_pos hr hU hE h32 hcd hl hV hn mem junk (by
    unfold FntCode.nOut; split
    · rename_i h; exact hkm h
    · omega)
  exact ⟨V', H', e, h2, h3, h4, h1⟩

/-- The payload is all of the block after its metadata if the block size is a multiple of the word size. -/
theorem C37_payload {w : Nat} {b : Array Nat} (hB : Block bs b) (h : w ∣ bs) : payload w bs b = b.toList.drop (metadata_size bs) := by
  unfold payload
  rw [Nat.div_mul_cancel h, List.take_of_length_le (by have := hB.1; simp; omega)]

/-- With fewer than `n_data` blocks left decode returns -1 and changes nothing. -/
theorem C37_too_few (hc : c.Ok) (hb : c.b = 32) (h32 : bs < 2 ^ 32) (hU : c.Mem bs U) (hw : c.nOut ≤ wanted.size)
    (he : c.EncodedC bs U wanted U') (hl : c.Lost U' wanted V missing) (hn : missing.toList.count false < c.k)
    (hr : c.Reachable PKT_SIZE R C H) (mem : Nat → Nat) (junk : Nat → Nat → Nat) : decode R V missing bs mem junk H = .ok (-1, V, H) := by
  obtain ⟨frags, fprops, hE, _, hcd⟩ := encodedC_facts hc hb h32 hU hw he
  exact decode_few hc hr hU hE h32 hcd hl hn mem junk

/-- **C38 is false.**  For every code with at least two data fragments, and blocks of more words than their metadata has room for marks,
there is data for which encode returns -1. -/
theorem C38_failure (hc : c.Ok) (hb : c.b = 32) (hk : 2 ≤ c.k) (h44 : bs < 2 ^ 44) (hT : metadata_size bs < 4 * (bs / c.w + 2)) :
    ∃ U, c.Mem bs U ∧ ∀ {wanted R C H} (junk), c.nOut ≤ wanted.size → c.Reachable PKT_SIZE R C H →
      ∃ U' C' H', encode R C U wanted bs junk H = .ok (-1, U', C', H') := by
  rw [metadata_size_eq] at hT
  obtain ⟨data, hd, hJ⟩ := exists_marked hc hk (le_refl (bs / c.w))
  obtain ⟨U, hU, rfl⟩ := exists_mem hd
  obtain ⟨frags, fprops, _, _, _, h, _⟩ := C36_streams_unique_partial hc hd
  have hE := (h frags fprops).mpr ⟨rfl, rfl⟩
  have hm := hc.hm
  refine ⟨U, hU, fun {wanted R C H} junk hw hr => ?_⟩
  obtain ⟨U', C', H', e, _⟩ := (encode_unfit hc hb pkt_pos hr hU hw hE h44 junk (f := 0) (by unfold FntCode.nOut; split <;> omega) (fun j hj => by omega)
    (by rw [hJ _ _ hE]; omega)).1 (by rw [hJ _ _ hE]; omega)
  exact ⟨U', C', H', e⟩

/-- **Metadata that would fit exactly** makes encode write past the end of its area. -/
theorem C38_overrun (hc : c.Ok) (hb : c.b = 32) (hk : 2 ≤ c.k) (h44 : bs < 2 ^ 44) (hT : metadata_size bs ≤ 4 * (bs / c.w + 2)) :
    ∃ U, c.Mem bs U ∧ ∀ {wanted R C H} (junk), c.nOut ≤ wanted.size → c.Reachable PKT_SIZE R C H →
      encode R C U wanted bs junk H = .error .ub := by
  rw [metadata_size_eq] at hT
  obtain ⟨data, hd, hJ⟩ := exists_marked hc hk (T := bs / c.w) (J := metaLen bs - 2)
    (Nat.sub_le_of_le_add (Nat.le_of_mul_le_mul_left hT (by norm_num)))
  obtain ⟨U, hU, rfl⟩ := exists_mem hd
  obtain ⟨frags, fprops, _, _, _, h, _⟩ := C36_streams_unique_partial hc hd
  have hE := (h frags fprops).mpr ⟨rfl, rfl⟩
  have hm := hc.hm
  have h16 : 16 ≤ metaLen bs := by unfold metaLen; omega
  refine ⟨U, hU, fun {wanted R C H} junk hw hr => ?_⟩
  exact (encode_unfit hc hb pkt_pos hr hU hw hE h44 junk (f := 0) (by unfold FntCode.nOut; split <;> omega) (fun j hj => by omega)
    (by rw [hJ _ _ hE]; omega)).2 (by rw [hJ _ _ hE]; omega)

/-- **C38, as far as it holds.**  Encode returns 0 when, and only when, each output fragment has fewer than `metadata_size / 4 - 2` marked
symbols; in other cases it returns -1 or writes out of bounds. -/
theorem C38_fits_partial (hc : c.Ok) (hb : c.b = 32) (h44 : bs < 2 ^ 44) (hU : c.Mem bs U) (hw : c.nOut ≤ wanted.size)
    (hr : c.Reachable PKT_SIZE R C H) (junk : Nat → Nat → Nat) {frags : Array (List Nat)} {fprops : Array Properties}
    (hE : c.Encoded (c.dataOf bs U) frags fprops) :
    (∃ U' C' H', encode R C U wanted bs junk H = .ok (0, U', C', H')) ↔
      ∀ f, f < c.nOut → 4 * ((gt fprops f).props.length + 2) < metadata_size bs := by
  have key : Fits c bs fprops ↔ ∀ f, f < c.nOut → 4 * ((gt fprops f).props.length + 2) < metadata_size bs := by
    rw [metadata_size_eq]
    exact ⟨fun h f hf => by have := h f hf; omega, fun h f hf => by have := h f hf; omega⟩
  rw [← key]
  constructor
  · rintro ⟨U', C', H', e⟩
    exact (encode_zero hc hb pkt_pos hr hU hw hE h44 e).1
  · intro hf
    obtain ⟨U', C', H', e, _⟩ := encode_fits hc hb pkt_pos hr hU hw hE h44 junk hf
    exact ⟨U', C', H', e⟩

/-- Whatever the data, encode returns 0 for blocks of fewer than 14 words, and for codes with one data fragment. -/
theorem C38_small_partial (hc : c.Ok) (hb : c.b = 32) (h44 : bs < 2 ^ 44) (hU : c.Mem bs U) (hw : c.nOut ≤ wanted.size)
    (hr : c.Reachable PKT_SIZE R C H) (junk : Nat → Nat → Nat) (h : c.k = 1 ∨ bs / c.w < 14) :
    ∃ U' C' H', encode R C U wanted bs junk H = .ok (0, U', C', H') ∧ c.Reachable PKT_SIZE R C' H' := by
  have hd := dataOf_data (c := c) (bs := bs) (fun i hi => hU.block i (by omega))
  obtain ⟨frags, fprops, _, _, _, hx, _⟩ := C36_streams_unique_partial hc hd
  have hE := (hx frags fprops).mpr ⟨rfl, rfl⟩
  obtain ⟨U', C', H', e, _, h⟩ := encode_fits hc hb pkt_pos hr hU hw hE h44 junk (fun f hf => by
    have h16 : 16 ≤ metaLen bs := by unfold metaLen; omega
    rcases h with h | h
    · rw [one_data hc h hd hE hf]; simp; omega
    · have := props_length_le hc hd hE hf; omega)
  exact ⟨U', C', H', e, h⟩

/-- **C39 is false.**  For every systematic code with fewer parities than data fragments decode reads past its table of properties,
whichever blocks are lost, even if none is. -/
theorem C39_decode_undefined (hc : c.Ok) (hb : c.b = 32) (h32 : bs < 2 ^ 32) (hU : c.Mem bs U) (hw : c.nOut ≤ wanted.size)
    (he : c.EncodedC bs U wanted U') (hl : c.Lost U' wanted V missing) (hV : ∀ i, i < c.k → Block bs (gt V i))
    (hn : c.k ≤ missing.toList.count false) (hs : c.sys = true) (hkm : c.m < c.k) (hr : c.Reachable PKT_SIZE R C H) (mem : Nat → Nat)
    (junk : Nat → Nat → Nat) : decode R V missing bs mem junk H = .error .ub := by
  obtain ⟨frags, fprops, hE, _, hcd⟩ := encodedC_facts hc hb h32 hU hw he
  exact decode_ub hc hb pkt_pos hr hU hE h32 hcd hl hV hn mem junk (by simp [FntCode.nOut, hs, hkm])

/-- Nor can such a code reconstruct any lost data block, if blocks have at least one word. -/
theorem C39_reconstruct_undefined (hc : c.Ok) (hb : c.b = 32) (h32 : bs < 2 ^ 32) (hU : c.Mem bs U) (hw : c.nOut ≤ wanted.size)
    (he : c.EncodedC bs U wanted U') (hl : c.Lost U' wanted V missing) {d : Nat} (hd : d < c.k) (hmd : gt missing d = true)
    (hV : Block bs (gt V d)) (hn : c.k ≤ missing.toList.count false) (hs : c.sys = true) (hkm : c.m < c.k) (hT : c.w ≤ bs)
    (hr : c.Reachable PKT_SIZE R C H) (mem : Nat → Nat) (junk : Nat → Nat → Nat) :
    reconstruct R C V missing d bs mem junk H = .error .ub := by
  obtain ⟨frags, fprops, hE, _, hcd⟩ := encodedC_facts hc hb h32 hU hw he
  exact reconstruct_ub hc hb pkt_pos hr hU hE h32 hcd hl hs hd hV hn hmd
    (Nat.div_pos hT (by rcases hc.hw with h | h <;> omega)) mem junk hkm

/-- **C40, where the code has defined behaviour.**  After a successful encode with which block `d` was produced, and the loss of any blocks such that
`n_data` are left, reconstruct returns 0 and block `d` holds again all the metadata and words that encode wrote to it.  The rest of block
`d` - the last word of its metadata, which encode does not write either, and the bytes after the last full word - and
the other blocks are unchanged.  Missing from C40: the data blocks of systematic codes with fewer parities than data fragments
(`C39_reconstruct_undefined`). -/
theorem C40_reconstruct_partial (hc : c.Ok) (hb : c.b = 32) (h32 : bs < 2 ^ 32) (hU : c.Mem bs U) (hw : c.nOut ≤ wanted.size)
    (he : c.EncodedC bs U wanted U') (hl : c.Lost U' wanted V missing) {d : Nat} (hd : d < c.k + c.m) (hV : Block bs (gt V d))
    (hwd : c.first ≤ d → gt wanted (d - c.first) = true) (hn : c.k ≤ missing.toList.count false)
    (hkm : c.sys = true → d < c.k → c.k ≤ c.m) (hr : c.Reachable PKT_SIZE R C H) (mem : Nat → Nat) (junk : Nat → Nat → Nat) :
    ∃ V' C' H', reconstruct R C V missing d bs mem junk H = .ok (0, V', C', H') ∧ V'.size = V.size ∧
      (∀ b, b ≠ d → gt V' b = gt V b) ∧ (gt V' d).size = (gt V d).size ∧
      (∀ x, gt (gt V' d) x = if x + 4 < metadata_size bs ∨ (metadata_size bs ≤ x ∧ x < metadata_size bs + bs / c.w * c.w)
        then gt (gt U' d) x else gt (gt V d) x) ∧ c.Reachable PKT_SIZE R C' H' := by
  obtain ⟨frags, fprops, hE, hf, hcd⟩ := encodedC_facts hc hb h32 hU hw he
  have hfin : ∀ {V' C' H'}, reconstruct R C V missing d bs mem junk H = .ok (0, V', C', H') → Restored c bs d U' V V' → c.Reachable PKT_SIZE R C' H' →
      ∃ V' C' H', reconstruct R C V missing d bs mem junk H = .ok (0, V', C', H') ∧ V'.size = V.size ∧
      (∀ b, b ≠ d → gt V' b = gt V b) ∧ (gt V' d).size = (gt V d).size ∧
      (∀ x, gt (gt V' d) x = if x + 4 < metadata_size bs ∨ (metadata_size bs ≤ x ∧ x < metadata_size bs + bs / c.w * c.w)
        then gt (gt U' d) x else gt (gt V d) x) ∧ c.Reachable PKT_SIZE R C' H' := fun {V' C' H'} e hR hr' => by
    refine ⟨V', C', H', e, hR.size, hR.other, hR.dsize, fun x => ?_, hr'⟩
    split
    · exact hR.back x (by omega) (by omega)
    · by_cases hx : x < metadata_size bs
      · exact hR.byte x (by omega) (by omega) hx
      · exact hR.rest x (by omega)
  by_cases hcase : c.first ≤ d
  · obtain ⟨V', C', H', e, hR, hr'⟩ := reconstruct_output hc hb pkt_pos hr hU hE h32 hcd hf hl hcase hd (hwd hcase) hV hn mem junk
    exact hfin e hR hr'
  · have hs : c.sys = true := by
      by_contra h
      simp [FntCode.first, h] at hcase
    have hdk : d < c.k := by simpa [FntCode.first, hs] using hcase
    obtain ⟨V', H', e, hR, hr'⟩ := reconstruct_data hc hb pkt_pos hr hU hE h32 hcd hl hs hdk hV hn mem junk (hkm hs hdk)
    exact hfin e hR hr'

/-- With fewer than `n_data` blocks left reconstruct returns -1 and changes nothing, for the codes for which C39 holds. -/
theorem C40_too_few (hc : c.Ok) (hb : c.b = 32) (h32 : bs < 2 ^ 32) (hU : c.Mem bs U) (hw : c.nOut ≤ wanted.size)
    (he : c.EncodedC bs U wanted U') (hl : c.Lost U' wanted V missing) (hn : missing.toList.count false < c.k) {d : Nat} (hd : d < c.k + c.m)
    (hkm : c.sys = true → c.k ≤ c.m) (hr : c.Reachable PKT_SIZE R C H) (mem : Nat → Nat) (junk : Nat → Nat → Nat) :
    reconstruct R C V missing d bs mem junk H = .ok (-1, V, C, H) := by
  obtain ⟨frags, fprops, hE, _, hcd⟩ := encodedC_facts hc hb h32 hU hw he
  exact reconstruct_few hc hr hU hE h32 hcd hl hn mem junk hd hkm

/-- **C39, as far as it holds.**  For non-systematic codes, and systematic codes with at least as many parities as data fragments, decode is
defined for every erasure pattern, and so is reconstruct of every block. -/
theorem C39_in_bounds_partial (hc : c.Ok) (hb : c.b = 32) (h32 : bs < 2 ^ 32) (hU : c.Mem bs U) (hw : c.nOut ≤ wanted.size)
    (he : c.EncodedC bs U wanted U') (hl : c.Lost U' wanted V missing) (hV : ∀ i, i < c.k + c.m → Block bs (gt V i))
    (hkm : c.sys = true → c.k ≤ c.m) (hr : c.Reachable PKT_SIZE R C H) (mem : Nat → Nat) (junk : Nat → Nat → Nat) :
    (∃ ret V' H', decode R V missing bs mem junk H = .ok (ret, V', H')) ∧
    ∀ d, d < c.k + c.m → (c.first ≤ d → gt wanted (d - c.first) = true) →
      ∃ ret V' C' H', reconstruct R C V missing d bs mem junk H = .ok (ret, V', C', H') := by
  by_cases hn : c.k ≤ missing.toList.count false
  · refine ⟨?_, fun d hd hwd => ?_⟩
    · obtain ⟨V', H', e, _⟩ := C37_round_trip_partial hc hb h32 hU hw he hl (fun i hi => hV i (by omega)) hn hkm hr mem junk
      exact ⟨0, V', H', e⟩
    · obtain ⟨V', C', H', e, _⟩ := C40_reconstruct_partial hc hb h32 hU hw he hl hd (hV d hd) hwd hn (fun h _ => hkm h) hr mem junk
      exact ⟨0, V', C', H', e⟩
  · exact ⟨⟨_, _, _, C37_too_few hc hb h32 hU hw he hl (by omega) hr mem junk⟩,
      fun d hd _ => ⟨_, _, _, _, C40_too_few hc hb h32 hU hw he hl (by omega) hd hkm hr mem junk⟩⟩

/-! ### concrete cases -/

/-- 3 data fragments, 4 parities, 16-bit words, systematic -/
def codeC : FntCode := ⟨32, 64, 2, 3, 4, true⟩
theorem codeC_ok : codeC.Ok := ⟨.inl ⟨rfl, rfl⟩, .inr rfl, by decide, by decide, by decide, by decide⟩

/-- 4 data fragments, 2 parities, bytes, systematic -/
def codeD : FntCode := ⟨32, 64, 1, 4, 2, true⟩
theorem codeD_ok : codeD.Ok := ⟨.inl ⟨rfl, rfl⟩, .inl rfl, by decide, by decide, by decide, by decide⟩

/-- blocks of 12 bytes of payload that are not all equal -/
def memOf (n : Nat) : Array (Array Nat) := Array.ofFn (fun i : Fin n => Array.ofFn (fun x : Fin 76 => (7 * i.1 + x.1) % 256))

theorem memOf_gt {n i : Nat} (h : i < n) : Block 12 (gt (memOf n) i) := by
  unfold memOf
  rw [gt_ofFn h]
  refine ⟨by simp [metadata_size], fun x hx => ?_⟩
  obtain ⟨j, hj, rfl⟩ := List.mem_iff_getElem.mp hx
  simp only [Array.getElem_toList, Array.getElem_ofFn]
  omega

theorem memOf_mem (c : FntCode) : c.Mem 12 (memOf (c.k + c.m)) := ⟨by simp [memOf], fun i hi => memOf_gt hi⟩

theorem reachable_ex (hc : c.Ok) : ∃ R C H, c.Reachable PKT_SIZE R C H := by
  obtain ⟨H, R, e⟩ := C23_new hc (simd := none) (by simp [FntCode.Builds]) PKT_SIZE (fun _ => 0) (fun _ _ => 0) #[]
  exact ⟨R, _, H, .new ⟨none, by simp [FntCode.Builds], _, _, _, e⟩⟩

theorem encodedC_ex (hc : c.Ok) (hb : c.b = 32) (hw : 12 / c.w < 14) : ∃ U', c.EncodedC 12 (memOf (c.k + c.m)) (Array.replicate c.nOut true) U' := by
  obtain ⟨R, C, H, hr⟩ := reachable_ex hc
  obtain ⟨U', C', H', e, _⟩ := C38_small_partial hc hb (bs := 12) (by norm_num) (memOf_mem c) (wanted := Array.replicate c.nOut true) (by simp) hr
    (fun _ _ => 0) (.inr hw)
  exact ⟨U', R, C, H, _, C', H', hr, e⟩

/-- the hypotheses of C37, C39 and C40: all blocks are there but those of `lost`, which are overwritten -/
theorem lost_ex {U U' : Array (Array Nat)} (hs : U'.size = c.k + c.m) (lost : Nat → Bool) :
    c.Lost U' (Array.replicate c.nOut true) (Array.ofFn (fun i : Fin (c.k + c.m) => if lost i then gt U i else gt U' i))
      (Array.ofFn (fun i : Fin (c.k + c.m) => lost i)) := by
  refine ⟨by simp, by simp, fun i hi hm => ?_, fun f hf _ => by rw [gt_replicate hf]⟩
  rw [gt_ofFn hi] at hm ⊢
  simp only at hm ⊢
  rw [hm]; rfl

theorem lost_block {U U' : Array (Array Nat)} (h1 : ∀ i, i < c.k + c.m → Block bs (gt U i)) (h2 : ∀ i, i < c.k + c.m → Block bs (gt U' i))
    (lost : Nat → Bool) (i : Nat) (hi : i < c.k + c.m) : Block bs (gt (Array.ofFn (fun i : Fin (c.k + c.m) => if lost i then gt U i else gt U' i)) i) := by
  rw [gt_ofFn hi]
  simp only
  split
  · exact h1 i hi
  · exact h2 i hi

theorem lost_case (hc : c.Ok) (hb : c.b = 32) (hw : 12 / c.w < 14) (lost : Nat → Bool) :
    ∃ U' V, c.EncodedC 12 (memOf (c.k + c.m)) (Array.replicate c.nOut true) U' ∧
      c.Lost U' (Array.replicate c.nOut true) V (Array.ofFn (fun i : Fin (c.k + c.m) => lost i)) ∧ ∀ i, i < c.k + c.m → Block 12 (gt V i) := by
  obtain ⟨U', h⟩ := encodedC_ex hc hb hw
  obtain ⟨_, _, _, _, hcd⟩ := encodedC_facts hc hb (by norm_num) (memOf_mem c) (by simp) h
  exact ⟨U', _, h, lost_ex (U := memOf (c.k + c.m)) hcd.size lost, lost_block (memOf_mem c).block (fun _ hi => hcd.block hi) lost⟩

/-- two data blocks and a parity are lost: four of seven blocks are left -/
example : ∃ U' V, codeC.EncodedC 12 (memOf (codeC.k + codeC.m)) (Array.replicate codeC.nOut true) U' ∧
    codeC.Lost U' (Array.replicate codeC.nOut true) V #[true, true, false, false, true, false, false] ∧
    (∀ i, i < codeC.k + codeC.m → Block 12 (gt V i)) ∧ codeC.k ≤ #[true, true, false, false, true, false, false].toList.count false ∧
    codeC.k ≤ codeC.m := by
  obtain ⟨U', V, h1, h2, h3⟩ := lost_case codeC_ok rfl (by decide) (fun i => decide (i = 0 ∨ i = 1 ∨ i = 4))
  exact ⟨U', V, h1, h2, h3, by decide, by decide⟩

/-- C39: data block 3 of `codeD` is lost -/
example : ∃ U' V, codeD.EncodedC 12 (memOf (codeD.k + codeD.m)) (Array.replicate codeD.nOut true) U' ∧
    codeD.Lost U' (Array.replicate codeD.nOut true) V #[false, false, false, true, false, false] ∧
    (∀ i, i < codeD.k + codeD.m → Block 12 (gt V i)) ∧ codeD.k ≤ #[false, false, false, true, false, false].toList.count false ∧
    codeD.m < codeD.k ∧ codeD.w ≤ 12 := by
  obtain ⟨U', V, h1, h2, h3⟩ := lost_case codeD_ok rfl (by decide) (fun i => decide (i = 3))
  exact ⟨U', V, h1, h2, h3, by decide, by decide, by decide⟩

/-- C38: blocks of 100 bytes, and of a mebibyte, have more words than room for marks -/
example : metadata_size 100 < 4 * (100 / codeD.w + 2) ∧ metadata_size 1048576 < 4 * (1048576 / codeC.w + 2) := by decide

end Quad.Props
