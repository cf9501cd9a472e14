import Verif.Lemmas.BenchChunk
import Verif.Spec.Bench

/-!
# C70: the self-check of the benchmark

The benchmark judges a code by its own chunks: it fills them with pseudo-random bytes and a checksum, and after decoding it compares checksums
and checks both sides.  C70: correct chunks are accepted, and a short corruption is not.  The comparison does not decide equality.
-/

namespace Quad.Props
open Quad Spec Bench

/-- Generated chunks of any size but 0 are accepted, whatever the generator's state and the memory before. -/
theorem C70_generated (P : Prng) {buf : Array Nat} {size : Nat} (hs : buf.size = size) (h0 : 0 < size) :
    ∃ b P', gen_chunk P buf size = .ok (b, P') ∧ Chunk size b ∧ check_chunk b size = .ok true := by
  obtain ⟨b, P', e, h1, h2, h3⟩ := gen_chunk_spec P hs h0
  exact ⟨b, P', e, ⟨h1, h2⟩, h3⟩

/-- Generating a chunk of no bytes writes beyond its memory. -/
theorem C70_empty_chunk (P : Prng) : gen_chunk P #[] 0 = .error .ub := rfl

private theorem body_split (buf : Array Nat) (n q len : Nat) :
    body buf n = (body buf n).take q ++ (((body buf n).drop q).take len ++ (body buf n).drop (q + len)) := by
  rw [← List.drop_drop, List.take_append_drop, List.take_append_drop]

private theorem body_len (buf : Array Nat) (n : Nat) : (body buf n).length = n := by simp [body]

private theorem body_get {buf : Array Nat} {n i : Nat} (h : i < (body buf n).length) : (body buf n)[i] = gt buf (4 + i) := by
  simp [body]

private theorem crc_ne {a b : Array Nat} {size lo len : Nat} (ha : Chunk size a) (hb : Chunk size b) (hlo : 4 ≤ lo) (hlen : len ≤ 4)
    (hd : DifferOnlyIn lo len a b) (he : crcFor a size = crcFor b size) : body a (size - 4) = body b (size - 4) := by
  have hba := body_bytes (buf := a) (n := size - 4) (fun i hi => ha.bytes _ (by omega))
  have hbb := body_bytes (buf := b) (n := size - 4) (fun i hi => hb.bytes _ (by omega))
  have h0 : not32 0 < 2 ^ 32 := not32_lt 0
  have e := not32_inj (crcOf_lt h0 hba) (crcOf_lt h0 hbb) he
  have hp : (body a (size - 4)).take (lo - 4) = (body b (size - 4)).take (lo - 4) := by
    refine List.ext_getElem (by simp [body_len]) (fun i h1 h2 => ?_)
    rw [List.length_take] at h1
    rw [List.getElem_take, List.getElem_take, body_get, body_get]
    exact hd _ (by omega)
  have hsuf : (body a (size - 4)).drop (lo - 4 + len) = (body b (size - 4)).drop (lo - 4 + len) := by
    refine List.ext_getElem (by simp [body_len]) (fun i h1 h2 => ?_)
    rw [List.getElem_drop, List.getElem_drop, body_get, body_get]
    exact hd _ (by omega)
  rw [body_split a _ (lo - 4) len, body_split b _ (lo - 4) len, crcOf_append, crcOf_append, crcOf_append, crcOf_append, hp, hsuf] at e
  have hpb : crcOf (not32 0) ((body b (size - 4)).take (lo - 4)) < 2 ^ 32 := crcOf_lt h0 (fun x hx => hbb x (List.mem_of_mem_take hx))
  have ma : ∀ x ∈ ((body a (size - 4)).drop (lo - 4)).take len, x < 256 := fun x hx => hba x (List.mem_of_mem_drop (List.mem_of_mem_take hx))
  have mb : ∀ x ∈ ((body b (size - 4)).drop (lo - 4)).take len, x < 256 := fun x hx => hbb x (List.mem_of_mem_drop (List.mem_of_mem_take hx))
  have e2 := crcOf_start (crcOf_lt hpb ma) (crcOf_lt hpb mb) (fun x hx => hbb x (List.mem_of_mem_drop hx)) e
  have e3 := crcOf_burst hpb ma mb (by simp [body_len]) (by rw [List.length_take]; omega) e2
  rw [body_split a _ (lo - 4) len, body_split b _ (lo - 4) len, hp, hsuf, e3]

private theorem crcIn_inj {a b : Array Nat} {size : Nat} (ha : Chunk size a) (hb : Chunk size b) (h4 : 4 ≤ size) (h : crcIn a = crcIn b) :
    ∀ i, i < 4 → gt a i = gt b i := by
  have m : ∀ {a : Array Nat}, Chunk size a → ∀ x ∈ [gt a 0, gt a 1, gt a 2, gt a 3], x < 256 := by
    intro a ha x hx
    simp only [List.mem_cons, List.not_mem_nil, or_false] at hx
    rcases hx with rfl | rfl | rfl | rfl <;> exact ha.bytes _ (by omega)
  have := le_inj (m ha) (m hb) rfl h
  simp only [List.cons.injEq, and_true] at this
  intro i hi
  have : i = 0 ∨ i = 1 ∨ i = 2 ∨ i = 3 := by omega
  rcases this with rfl | rfl | rfl | rfl <;> tauto

private theorem chunk_ext {a b : Array Nat} {size : Nat} (ha : Chunk size a) (hb : Chunk size b) (h4 : 4 ≤ size)
    (h1 : ∀ i, i < 4 → gt a i = gt b i) (h2 : body a (size - 4) = body b (size - 4)) : a = b := by
  refine gt_ext (by rw [ha.size, hb.size]) (fun i hi => ?_)
  rw [ha.size] at hi
  rcases Nat.lt_or_ge i 4 with h | h
  · exact h1 i h
  · obtain ⟨j, rfl⟩ := Nat.exists_eq_add_of_le h
    have e := congrArg (fun l => l[j]?) h2
    simpa [body, show j < size - 4 from by omega] using e

/-- A corruption of a correct chunk that is confined to four bytes in a row after the checksum, or to the checksum, is always detected. -/
theorem C70_detects {a b : Array Nat} {size lo len : Nat} (ha : Chunk size a) (hb : Chunk size b) (h4 : 4 ≤ size)
    (hc : check_chunk a size = .ok true) (hlen : len ≤ 4) (hlo : 4 ≤ lo ∨ lo + len ≤ 4) (hd : DifferOnlyIn lo len a b) (hne : a ≠ b) :
    check_chunk b size = .ok false := by
  rw [check_chunk_eq ha.size h4] at hc
  have hc : crcIn a = crcFor a size := by simpa using hc
  rw [check_chunk_eq hb.size h4]
  congr 1
  rw [beq_eq_false_iff_ne]
  intro h
  refine hne ?_
  rcases hlo with hlo | hlo
  · have hi : ∀ i, i < 4 → gt a i = gt b i := fun i hi => hd i (by omega)
    have e : crcIn a = crcIn b := by unfold crcIn; rw [hi 0 (by omega), hi 1 (by omega), hi 2 (by omega), hi 3 (by omega)]
    exact chunk_ext ha hb h4 hi (crc_ne ha hb hlo hlen hd (by rw [← hc, e, h]))
  · have hbody : body a (size - 4) = body b (size - 4) := body_congr (fun i _ => hd _ (by omega))
    refine chunk_ext ha hb h4 (crcIn_inj ha hb h4 ?_) hbody
    rw [hc, h]
    unfold crcFor
    rw [hbody]

example : Chunk 9 #[0xab, 0x8f, 0x51, 0x53, 1, 2, 3, 4, 5] ∧ check_chunk #[0xab, 0x8f, 0x51, 0x53, 1, 2, 3, 4, 5] 9 = .ok true := by
  refine ⟨⟨rfl, ?_⟩, ?_⟩
  · decide
  · decide +kernel

/-- Chunks of up to three bytes have no checksum: they are accepted if all their bytes are equal. -/
theorem C70_short_chunks {b : Array Nat} {size : Nat} (hb : Chunk size b) (h0 : 0 < size) (h4 : size < 4) :
    ∃ v, check_chunk b size = .ok v ∧ (v = true ↔ ∀ i, i < size → gt b i = gt b 0) :=
  check_short_eq hb.size h0 h4

private theorem check_total {size : Nat} (h0 : 0 < size) {b : Array Nat} (hb : Chunk size b) : ∃ v, check_chunk b size = .ok v := by
  rcases Nat.lt_or_ge size 4 with h | h
  · obtain ⟨v, e, _⟩ := check_short_eq hb.size h0 h; exact ⟨v, e⟩
  · exact ⟨_, check_chunk_eq hb.size h⟩

private theorem check_all {size : Nat} (h0 : 0 < size) {l : List (Array Nat)} (hl : ∀ b ∈ l, Chunk size b) :
    ∃ v, Bench.check size l = .ok v ∧ (v = true ↔ ∀ b ∈ l, check_chunk b size = .ok true) := by
  induction l with
  | nil => exact ⟨true, rfl, by simp⟩
  | cons b bs ih =>
    obtain ⟨v, e⟩ := check_total h0 (hl b (by simp))
    obtain ⟨v', e', h'⟩ := ih (fun x hx => hl x (by simp [hx]))
    unfold Bench.check
    rw [e, ok_bind]
    cases v
    · exact ⟨false, rfl, by simp [e]⟩
    · refine ⟨v', e', h'.trans ?_⟩
      simp [e]

private theorem crcs_spec {size : Nat} {as bs : List (Array Nat)} (hl : as.length = bs.length) (ha : ∀ b ∈ as, b.size = size)
    (hb : ∀ b ∈ bs, b.size = size) :
    ∃ v, sameCrcs size as bs = .ok v ∧ (v = true ↔ ∀ i, i < as.length → get_crc (as.getD i #[]) size = get_crc (bs.getD i #[]) size) := by
  induction as generalizing bs with
  | nil => exact ⟨true, by unfold sameCrcs; rfl, by simp⟩
  | cons a as ih =>
    cases bs with
    | nil => simp at hl
    | cons b bs =>
      obtain ⟨v, e, h⟩ := ih (bs := bs) (by simpa using hl) (fun x hx => ha x (by simp [hx])) (fun x hx => hb x (by simp [hx]))
      have tot : ∀ {x : Array Nat}, x.size = size → ∃ y, get_crc x size = .ok y := by
        intro x hx
        unfold get_crc
        split
        · exact ⟨_, rfl⟩
        · exact ⟨_, getCrc_eq (by omega)⟩
      obtain ⟨x, ex⟩ := tot (ha a (by simp))
      obtain ⟨y, ey⟩ := tot (hb b (by simp))
      unfold sameCrcs
      rw [ex, ok_bind, ey, ok_bind]
      by_cases hxy : x = y
      · rw [if_pos hxy]
        refine ⟨v, e, h.trans ⟨fun q i hi => ?_, fun q i hi => ?_⟩⟩
        · cases i with
          | zero => simp [ex, ey, hxy]
          | succ i => simpa using q i (by simpa using hi)
        · simpa using q (i + 1) (by simpa using hi)
      · rw [if_neg hxy]
        refine ⟨false, rfl, by simp, fun q => ?_⟩
        have := q 0 (by simp)
        simp only [List.getD_cons_zero, ex, ey] at this
        exact absurd (Except.ok.inj this) hxy

/-- What the comparison of two sets of chunks decides: as many chunks, the same checksums, and all of them correct.  It never fails. -/
theorem C70_compare {size : Nat} (h0 : 0 < size) {as bs : List (Array Nat)} (ha : ∀ b ∈ as, Chunk size b) (hb : ∀ b ∈ bs, Chunk size b) :
    ∃ v, Bench.compare size as bs = .ok v ∧ (v = true ↔ as.length = bs.length ∧
      (4 ≤ size → ∀ i, i < as.length → ∀ j, j < 4 → gt (as.getD i #[]) j = gt (bs.getD i #[]) j) ∧
      (∀ b ∈ as, check_chunk b size = .ok true) ∧ ∀ b ∈ bs, check_chunk b size = .ok true) := by
  unfold Bench.compare
  by_cases hl : as.length = bs.length
  swap
  · rw [if_pos hl]; exact ⟨false, rfl, by simp [hl]⟩
  rw [if_neg (not_not.2 hl)]
  obtain ⟨v1, e1, h1⟩ := crcs_spec hl (fun b h => (ha b h).size) (fun b h => (hb b h).size)
  obtain ⟨v2, e2, h2⟩ := check_all h0 ha
  obtain ⟨v3, e3, h3⟩ := check_all h0 hb
  have gm : ∀ (l : List (Array Nat)) i, i < l.length → l.getD i #[] ∈ l := by
    intro l i hi
    rw [List.getD_eq_getElem?_getD, List.getElem?_eq_getElem hi]
    simp
  have h1' : v1 = true ↔ (4 ≤ size → ∀ i, i < as.length → ∀ j, j < 4 → gt (as.getD i #[]) j = gt (bs.getD i #[]) j) := by
    refine h1.trans ⟨fun q h4 i hi => ?_, fun q i hi => ?_⟩
    · have := q i hi
      have ca := ha _ (gm as i hi)
      have cb := hb _ (gm bs i (by omega))
      unfold get_crc at this
      rw [if_neg (by omega), if_neg (by omega), getCrc_eq (by rw [ca.size]; exact h4), getCrc_eq (by rw [cb.size]; exact h4)] at this
      exact crcIn_inj ca cb h4 (Except.ok.inj this)
    · unfold get_crc
      split
      · rfl
      · have ca := ha _ (gm as i hi)
        have cb := hb _ (gm bs i (by omega))
        rw [getCrc_eq (by rw [ca.size]; omega), getCrc_eq (by rw [cb.size]; omega)]
        have q := q (by omega) i hi
        unfold crcIn
        rw [q 0 (by omega), q 1 (by omega), q 2 (by omega), q 3 (by omega)]
  rw [e1, ok_bind]
  cases v1
  · refine ⟨false, rfl, by simp, fun q => absurd (h1'.2 q.2.1) (by simp)⟩
  rw [if_pos rfl, e2, ok_bind]
  cases v2
  · refine ⟨false, rfl, by simp, fun q => absurd (h2.2 q.2.2.1) (by simp)⟩
  rw [if_pos rfl, e3]
  exact ⟨v3, rfl, h3.trans ⟨fun q => ⟨hl, h1'.1 rfl, h2.1 rfl, q⟩, fun q => q.2.2.2⟩⟩

/-- Chunks of 4 to 8 bytes that compare equal are equal.  Missing: other sizes, for which it is not so
(`C70_comparison_misses`, `C70_comparison_misses_short`). -/
theorem C70_equal_partial {size : Nat} (h4 : 4 ≤ size) (h8 : size ≤ 8) {as bs : List (Array Nat)} (ha : ∀ b ∈ as, Chunk size b)
    (hb : ∀ b ∈ bs, Chunk size b) (h : Bench.compare size as bs = .ok true) : as = bs := by
  obtain ⟨v, e, hv⟩ := C70_compare (by omega) ha hb
  rw [h] at e
  obtain ⟨hl, h1, h2, h3⟩ := hv.1 (Except.ok.inj e).symm
  refine List.ext_getElem hl (fun i hi hi' => ?_)
  have ca := ha _ (List.getElem_mem hi)
  have cb := hb _ (List.getElem_mem hi')
  have q := h1 h4 i hi
  rw [List.getD_eq_getElem?_getD, List.getElem?_eq_getElem hi, List.getD_eq_getElem?_getD, List.getElem?_eq_getElem hi'] at q
  have q2 := h2 _ (List.getElem_mem hi)
  have q3 := h3 _ (List.getElem_mem hi')
  rw [check_chunk_eq ca.size h4] at q2
  rw [check_chunk_eq cb.size h4] at q3
  have q2 : crcIn as[i] = crcFor as[i] size := by simpa using q2
  have q3 : crcIn bs[i] = crcFor bs[i] size := by simpa using q3
  have e : crcIn as[i] = crcIn bs[i] := by
    unfold crcIn
    have := q 0 (by omega); have := q 1 (by omega); have := q 2 (by omega); have := q 3 (by omega)
    simp_all
  have hba := body_bytes (buf := as[i]) (n := size - 4) (fun i hi => ca.bytes _ (by omega))
  have hbb := body_bytes (buf := bs[i]) (n := size - 4) (fun i hi => cb.bytes _ (by omega))
  refine chunk_ext ca cb h4 q (crcOf_burst (not32_lt 0) hba hbb (by simp [body_len]) (by rw [body_len]; omega) ?_)
  exact not32_inj (crcOf_lt (not32_lt 0) hba) (crcOf_lt (not32_lt 0) hbb) (by
    change crcFor _ size = crcFor _ size
    rw [← q2, ← q3, e])

/-- C70 fails for longer chunks: any correct chunk of at least nine bytes compares equal to a different one. -/
theorem C70_comparison_misses {a : Array Nat} {size : Nat} (h9 : 9 ≤ size) (ha : Chunk size a) (hc : check_chunk a size = .ok true) :
    ∃ b, Chunk size b ∧ b ≠ a ∧ Bench.compare size [a] [b] = .ok true := by
  have hba := body_bytes (buf := a) (n := size - 4) (fun i hi => ha.bytes _ (by omega))
  obtain ⟨l, l1, l2, l3, l4⟩ := crcOf_twin (l := (body a (size - 4)).take 5) (fun x hx => hba x (List.mem_of_mem_take hx))
    (by rw [List.length_take, body_len]; omega)
  set b : Array Nat := Array.ofFn (fun i : Fin size => if 4 ≤ i.1 ∧ i.1 < 9 then l.getD (i.1 - 4) 0 else gt a i) with hbdef
  have gb : ∀ i, i < size → gt b i = if 4 ≤ i ∧ i < 9 then l.getD (i - 4) 0 else gt a i := fun i hi => gt_ofFn hi
  have hb : Chunk size b := by
    refine ⟨by simp [hbdef], fun i hi => ?_⟩
    rw [gb i hi]
    split
    · rw [List.getD_eq_getElem?_getD, List.getElem?_eq_getElem (by omega)]
      exact l1 _ (List.getElem_mem _)
    · exact ha.bytes i hi
  have ht : (body b (size - 4)).take 5 = l := by
    refine List.ext_getElem (by rw [List.length_take, body_len, l2]; omega) (fun i h1 h2 => ?_)
    rw [List.getElem_take, body_get, gb _ (by omega), if_pos (by omega), List.getD_eq_getElem?_getD,
      List.getElem?_eq_getElem (by omega)]
    simp
  have hdr : (body b (size - 4)).drop 5 = (body a (size - 4)).drop 5 := by
    refine List.ext_getElem (by simp [body_len]) (fun i h1 h2 => ?_)
    rw [List.length_drop, body_len] at h1
    rw [List.getElem_drop, List.getElem_drop, body_get, body_get, gb _ (by omega), if_neg (by omega)]
  have hcrc : crcFor b size = crcFor a size := by
    unfold crcFor
    rw [← List.take_append_drop 5 (body b (size - 4)), ← List.take_append_drop 5 (body a (size - 4)), crcOf_append, crcOf_append, ht, hdr, l4]
  have hin : ∀ j, j < 4 → gt a j = gt b j := fun j hj => by rw [gb j (by omega), if_neg (by omega)]
  refine ⟨b, hb, fun e => l3 (by rw [← ht, e]), ?_⟩
  have hc' : check_chunk b size = .ok true := by
    rw [check_chunk_eq ha.size (by omega)] at hc
    rw [check_chunk_eq hb.size (by omega), hcrc, ← hc]
    unfold crcIn
    rw [hin 0 (by omega), hin 1 (by omega), hin 2 (by omega), hin 3 (by omega)]
  obtain ⟨v, e, hv⟩ := C70_compare (size := size) (by omega) (as := [a]) (bs := [b]) (by simpa using ha) (by simpa using hb)
  rw [e, hv.2 ⟨rfl, fun _ i hi j hj => ?_, by simpa using hc, by simpa using hc'⟩]
  have : i = 0 := by simpa using hi
  subst this
  simpa using hin j hj

/-- C70 fails for chunks of up to three bytes: a chunk compares equal to one with every byte replaced. -/
theorem C70_comparison_misses_short {size x y : Nat} (h0 : 0 < size) (h4 : size < 4) (hx : x < 256) (hy : y < 256) :
    Bench.compare size [Array.replicate size x] [Array.replicate size y] = .ok true := by
  have hC : ∀ z, z < 256 → Chunk size (Array.replicate size z) ∧ check_chunk (Array.replicate size z) size = .ok true := by
    intro z hz
    have c : Chunk size (Array.replicate size z) := ⟨by simp, fun i hi => by rw [gt_replicate hi]; exact hz⟩
    obtain ⟨v, e, hv⟩ := C70_short_chunks c h0 h4
    exact ⟨c, by rw [e, hv.2 (fun i hi => by rw [gt_replicate hi, gt_replicate h0])]⟩
  obtain ⟨v, e, hv⟩ := C70_compare (size := size) h0 (as := [Array.replicate size x]) (bs := [Array.replicate size y])
    (by simpa using (hC x hx).1) (by simpa using (hC y hy).1)
  rw [e, hv.2 ⟨rfl, fun h => by omega, by simpa using (hC x hx).2, by simpa using (hC y hy).2⟩]

end Quad.Props
