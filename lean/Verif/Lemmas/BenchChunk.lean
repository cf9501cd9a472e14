import Verif.Lemmas.Crc

/-!
# The chunks of the benchmark
-/

namespace Quad.Bench

/-- the bytes of a chunk after the checksum -/
def body (buf : Array Nat) (n : Nat) : List Nat := (List.range n).map (fun i => gt buf (4 + i))

theorem body_succ (buf : Array Nat) (n : Nat) : body buf (n + 1) = body buf n ++ [gt buf (4 + n)] := by
  unfold body
  rw [List.range_succ, List.map_append]; rfl

theorem body_congr {a b : Array Nat} {n : Nat} (h : ∀ i, i < n → gt a (4 + i) = gt b (4 + i)) : body a n = body b n :=
  List.map_congr_left (fun i hi => h i (List.mem_range.1 hi))

theorem body_bytes {buf : Array Nat} {n : Nat} (h : ∀ i, i < n → gt buf (4 + i) < 256) : ∀ x ∈ body buf n, x < 256 := by
  intro x hx
  obtain ⟨i, hi, rfl⟩ := List.mem_map.1 hx
  exact h i (List.mem_range.1 hi)

theorem not32_lt (x : Nat) : not32 x < 2 ^ 32 := by unfold not32; omega

theorem not32_inj {x y : Nat} (hx : x < 2 ^ 32) (hy : y < 2 ^ 32) (h : not32 x = not32 y) : x = y := by
  unfold not32 at h; omega

/-- the checksum a chunk should have -/
def crcFor (buf : Array Nat) (size : Nat) : Nat := not32 (crcOf (not32 0) (body buf (size - 4)))

/-- the checksum a chunk has -/
def crcIn (buf : Array Nat) : Nat := le [gt buf 0, gt buf 1, gt buf 2, gt buf 3]

theorem getCrc_eq {buf : Array Nat} (h : 4 ≤ buf.size) : getCrc buf = .ok (crcIn buf) := by
  unfold getCrc crcIn
  rw [rd_gt (by omega), ok_bind, rd_gt (by omega), ok_bind, rd_gt (by omega), ok_bind, rd_gt (by omega), ok_bind]
  simp only [le]
  congr 1
  omega

theorem check_chunk_eq {buf : Array Nat} {size : Nat} (hs : buf.size = size) (h4 : 4 ≤ size) :
    check_chunk buf size = .ok (crcIn buf == crcFor buf size) := by
  unfold check_chunk
  rw [if_neg (by omega)]
  obtain ⟨c, e, hc⟩ := forN_inv (n := size - 4) (s := not32 0) (f := fun i crc => do
      let x ← rd buf (4 + i)
      pure (crcByte crc x)) (I := fun t c => c = crcOf (not32 0) (body buf t)) rfl (by
    intro t c ht hc
    rw [rd_gt (by omega), ok_bind]
    refine ⟨_, rfl, ?_⟩
    rw [body_succ, crcOf_append, ← hc]; rfl)
  rw [e, ok_bind, getCrc_eq (by omega), ok_bind, hc]
  rfl

theorem check_short_eq {buf : Array Nat} {size : Nat} (hs : buf.size = size) (h0 : 0 < size) (h4 : size < 4) :
    ∃ v, check_chunk buf size = .ok v ∧ (v = true ↔ ∀ i, i < size → gt buf i = gt buf 0) := by
  unfold check_chunk
  rw [if_pos h4, rd_gt (by omega), ok_bind]
  obtain ⟨c, e, hc⟩ := forN_inv (n := size - 1) (s := true) (f := fun i same => do
      let x ← rd buf (1 + i)
      pure (same && x == gt buf 0)) (I := fun t c => c = true ↔ ∀ i, i < t + 1 → gt buf i = gt buf 0) (by
        simp) (by
    intro t c ht hc
    rw [rd_gt (by omega), ok_bind]
    refine ⟨_, rfl, ?_⟩
    rw [Bool.and_eq_true, hc, beq_iff_eq]
    constructor
    · rintro ⟨h1, h2⟩ i hi
      rcases Nat.lt_or_ge i (t + 1) with h | h
      · exact h1 i h
      · rw [show i = 1 + t from by omega]; exact h2
    · exact fun h => ⟨fun i hi => h i (by omega), h _ (by omega)⟩)
  refine ⟨c, e, hc.trans ?_⟩
  rw [show size - 1 + 1 = size from by omega]

theorem putCrc_spec {buf : Array Nat} {v : Nat} (h : 4 ≤ buf.size) (hv : v < 2 ^ 32) :
    ∃ b, putCrc buf v = .ok b ∧ b.size = buf.size ∧ crcIn b = v ∧ (∀ i, i < 4 → gt b i < 256) ∧ ∀ i, gt b (4 + i) = gt buf (4 + i) := by
  unfold putCrc
  rw [wr_ok (by omega), ok_bind, wr_ok (by simp; omega), ok_bind, wr_ok (by simp; omega), ok_bind, wr_ok (by simp; omega)]
  have key : ∀ i, gt ((((buf.setIfInBounds 0 (v % 256)).setIfInBounds 1 (v / 2 ^ 8 % 256)).setIfInBounds 2 (v / 2 ^ 16 % 256)).setIfInBounds 3
      (v / 2 ^ 24 % 256)) i = if i = 3 then v / 2 ^ 24 % 256 else if i = 2 then v / 2 ^ 16 % 256 else if i = 1 then v / 2 ^ 8 % 256
        else if i = 0 then v % 256 else gt buf i := by
    intro i
    rw [gt_set (by simp; omega), gt_set (by simp; omega), gt_set (by simp; omega), gt_set (by omega)]
  refine ⟨_, rfl, by simp, ?_, ?_, ?_⟩
  · unfold crcIn
    rw [key 0, key 1, key 2, key 3]
    simp [le]
    omega
  · intro i hi
    have : i = 0 ∨ i = 1 ∨ i = 2 ∨ i = 3 := by omega
    rw [key i]
    rcases this with rfl | rfl | rfl | rfl <;> simp <;> exact Nat.mod_lt _ (by decide)
  · intro i
    rw [key, if_neg (by omega), if_neg (by omega), if_neg (by omega), if_neg (by omega)]

theorem gen_chunk_spec (P : Prng) {buf : Array Nat} {size : Nat} (hs : buf.size = size) (h0 : 0 < size) :
    ∃ b P', gen_chunk P buf size = .ok (b, P') ∧ b.size = size ∧ (∀ i, i < size → gt b i < 256) ∧ check_chunk b size = .ok true := by
  unfold gen_chunk
  by_cases h4 : size < 4
  · rw [if_pos h4, wr_ok (by omega), ok_bind]
    obtain ⟨b, e, h1, h2, h3⟩ := forN_inv (n := size - 1) (s := buf.setIfInBounds 0 (P.rand.1 % 256)) (f := fun i buf => do
        let v ← rd buf 0
        wr buf (1 + i) v)
      (I := fun t b => b.size = size ∧ gt b 0 < 256 ∧ ∀ i, i < t + 1 → gt b i = gt b 0) (by
        refine ⟨by simpa using hs, ?_, fun i hi => by rw [show i = 0 from by omega]⟩
        rw [gt_set (by omega), if_pos rfl]
        exact Nat.mod_lt _ (by decide)) (by
        rintro t b ht ⟨h1, h2, h3⟩
        rw [rd_gt (by omega), ok_bind, wr_ok (by omega)]
        refine ⟨_, rfl, by simpa using h1, ?_, fun i hi => ?_⟩
        · rw [gt_set (by omega), if_neg (by omega)]; exact h2
        · rw [gt_set (by omega), gt_set (by omega), if_neg (by omega : ¬ 0 = 1 + t)]
          split
          · rfl
          · exact h3 i (by omega))
    rw [e, ok_bind]
    have hall : ∀ i, i < size → gt b i = gt b 0 := fun i hi => h3 i (by omega)
    obtain ⟨v, ev, hv⟩ := check_short_eq h1 h0 h4
    exact ⟨b, _, rfl, h1, fun i hi => by rw [hall i hi]; exact h2, by rw [ev, hv.2 hall]⟩
  · rw [if_neg h4]
    obtain ⟨⟨b, crc, P'⟩, e, h1, h2, h3⟩ := forN_inv (n := size - 4) (s := (buf, not32 0, P)) (f := fun i s => do
        let val := s.2.2.rand.1 % 256
        let buf ← wr s.1 (4 + i) val
        pure (buf, crcByte s.2.1 val, s.2.2.rand.2))
      (I := fun t s => s.1.size = size ∧ (∀ i, i < t → gt s.1 (4 + i) < 256) ∧ s.2.1 = crcOf (not32 0) (body s.1 t))
      ⟨hs, fun i hi => by omega, rfl⟩ (by
        rintro t ⟨b, c, P⟩ ht ⟨h1, h2, h3⟩
        simp only at h1 h2 h3 ⊢
        rw [wr_ok (by omega), ok_bind]
        refine ⟨_, rfl, by simpa using h1, fun i hi => ?_, ?_⟩
        · rw [gt_set (by omega)]
          split
          · exact Nat.mod_lt _ (by decide)
          · exact h2 i (by omega)
        · rw [body_succ, crcOf_append, body_congr (b := b) (fun i hi => by rw [gt_set (by omega), if_neg (by omega)]), ← h3,
            gt_set (by omega), if_pos rfl]
          rfl)
    simp only at h1 h2 h3
    rw [e, ok_bind]
    simp only
    obtain ⟨b', e', q1, q2, q3, q4⟩ := putCrc_spec (buf := b) (by omega) (not32_lt crc)
    rw [e', ok_bind]
    refine ⟨b', P', rfl, by omega, fun i hi => ?_, ?_⟩
    · rcases Nat.lt_or_ge i 4 with h | h
      · exact q3 i h
      · obtain ⟨j, rfl⟩ := Nat.exists_eq_add_of_le h
        rw [q4 j]
        exact h2 j (by omega)
    · rw [check_chunk_eq (by omega) (by omega), q2, crcFor, body_congr (b := b) (fun i _ => q4 i), ← h3]
      simp

end Quad.Bench
