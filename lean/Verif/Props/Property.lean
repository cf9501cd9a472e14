import Verif.Lemmas.Property
import Mathlib.Data.List.GetD

/-!
# Properties of src/property.h and src/property.cpp (C33, C34)

`fnt_serialize P area` returns the C++ return code and the area afterwards, an
area being the array of its 32-bit words.  `fnt_deserialize P area` returns the
code and the object afterwards.
-/

namespace Quad.Props
open Quad Quad.Properties

/-- an object whose locations and markers fit the serialised format: 32-bit
locations, marker `OOR_MARK` -/
def Fnt (P : Properties) : Prop := ∀ it ∈ P.props, it.1 < 2 ^ 32 ∧ it.2 = OOR_MARK

/-- C33: serialisation succeeds when at least one word is left over, and
deserialising into an empty object then restores the object exactly.
Missing: the exact fit, see `C33_exact_fit_undefined`. -/
theorem C33_round_trip_partial {P : Properties} {area : Array Nat} (hP : Fnt P)
    (hfit : P.props.length + 2 < area.size) (h32 : area.size < 2 ^ 32) :
    ∃ area', P.fnt_serialize area = .ok (0, area') ∧ area'.size = area.size ∧
      Properties.empty.fnt_deserialize area' = .ok (0, P) := by
  obtain ⟨d, e, s1, p0, p1, p2, _, _⟩ := serialize_spec (P := P) (d := area) (by omega) h32
  refine ⟨d, e, s1, ?_⟩
  unfold fnt_deserialize
  simp only
  have hl : P.props.length < 2 ^ 32 := by omega
  rw [if_neg (by omega), rd_gt (by omega), ok_bind, p0, bswap32_bswap32 (by decide), if_neg (by simp),
    rd_gt (by omega), ok_bind, p1, bswap32_bswap32 hl, Nat.mod_eq_of_lt (by omega), if_neg (by omega)]
  rw [readLocs_spec (by omega) (by omega), ok_bind]
  have : (List.range P.props.length).map (fun k => (bswap32 (gt d (2 + k)), OOR_MARK)) = P.props := by
    apply List.ext_getElem (by simp)
    intro k h1 h2
    have hk : k < P.props.length := h2
    obtain ⟨q1, q2⟩ := hP P.props[k] (List.getElem_mem hk)
    simp only [List.getElem_map, List.getElem_range]
    rw [p2 k hk]
    simp only [List.getElem?_eq_getElem hk, Option.getD_some]
    rw [Nat.mod_eq_of_lt q1, bswap32_bswap32 q1, ← q2]
  simp [Properties.empty, this, pure, Except.pure]

/-- C33: it reports failure exactly when the area is too small (in every other
case it returns 0 or, for the exact fit, is undefined), leaving the area alone. -/
theorem C33_failure {P : Properties} {area : Array Nat} (h32 : area.size < 2 ^ 32) :
    (area.size < P.props.length + 2 → P.fnt_serialize area = .ok (-1, area)) ∧
    (∀ a, P.fnt_serialize area = .ok (-1, a) → area.size < P.props.length + 2) := by
  constructor
  · intro h
    unfold fnt_serialize
    simp only
    rw [if_pos (by omega)]
  · intro a h
    by_contra hc
    by_cases heq : area.size = P.props.length + 2
    · unfold fnt_serialize at h
      simp only at h
      obtain ⟨d1, e1, _⟩ := writeLocs_spec P.props 2 (area.setIfInBounds 0 (bswap32 FNT1)) (by simp; omega)
      have hs := (writeLocs_spec P.props 2 (area.setIfInBounds 0 (bswap32 FNT1)) (by simp; omega)).choose_spec
      rw [if_neg (by omega), wr_ok (by omega), ok_bind, hs.1, ok_bind] at h
      simp only at h
      rw [wr_ok (by rw [hs.2.1]; simp; omega), ok_bind, if_pos (by omega)] at h
      cases h
    · obtain ⟨d, e, _⟩ := serialize_spec (P := P) (d := area) (by omega) h32
      rw [e] at h
      simp at h

/-- The exact fit is undefined behaviour: the final `std::fill` is called with
`first = last + 1`. -/
theorem C33_exact_fit_undefined {P : Properties} {area : Array Nat} (h : area.size = P.props.length + 2) :
    P.fnt_serialize area = .error .ub := by
  unfold fnt_serialize
  simp only
  have hs := (writeLocs_spec P.props 2 (area.setIfInBounds 0 (bswap32 FNT1)) (by simp; omega)).choose_spec
  rw [if_neg (by omega), wr_ok (by omega), ok_bind, hs.1, ok_bind]
  simp only
  rw [wr_ok (by rw [hs.2.1]; simp; omega), ok_bind, if_pos (by omega)]

/-- C33: an area without the magic word is refused and the object unchanged. -/
theorem C33_foreign {P : Properties} {area : Array Nat} (h : 2 ≤ area.size → bswap32 (gt area 0) ≠ 0x464E5431) :
    P.fnt_deserialize area = .ok (-1, P) := by
  unfold fnt_deserialize
  simp only
  by_cases h2 : area.size < 2
  · rw [if_pos h2]
  · rw [if_neg h2, rd_gt (by omega), ok_bind, if_pos (show bswap32 (gt area 0) ≠ FNT1 from h (by omega))]; rfl

/-- C33: a count larger than the area is refused and the object unchanged,
unless the 32-bit sum `2 + count` wraps around. -/
theorem C33_bad_count_partial {P : Properties} {area : Array Nat} (h2 : 2 ≤ area.size)
    (hc : area.size < 2 + bswap32 (gt area 1)) (hw : 2 + bswap32 (gt area 1) < 2 ^ 32) :
    P.fnt_deserialize area = .ok (-1, P) := by
  unfold fnt_deserialize
  simp only
  rw [if_neg (by omega), rd_gt (by omega), ok_bind]
  split
  · rfl
  · rw [rd_gt (by omega), ok_bind, Nat.mod_eq_of_lt hw, if_pos hc]; rfl

/-- When it wraps around, the check passes and the area is read out of range. -/
theorem C33_count_wraps_around :
    ∃ area : Array Nat, area.size = 2 ∧ Properties.empty.fnt_deserialize area = .error .ub := by
  refine ⟨#[bswap32 0x464E5431, bswap32 (2 ^ 32 - 1)], rfl, ?_⟩
  unfold fnt_deserialize
  simp only
  rw [if_neg (by decide), rd_gt (by decide), ok_bind, if_neg (by decide), rd_gt (by decide), ok_bind,
    if_neg (by decide), forN_first_error (e := .ub)]
  · rfl
  · decide
  · rfl

/-- C33: what reading any area into an empty object does.  Whatever the area holds, it is refused, or the locations it lists are read, unless the
count is one of the two that wrap around: then words beyond the area are read. -/
theorem C33_every_area {area : Array Nat} (h2 : 2 ≤ area.size) (h32 : area.size < 2 ^ 32) :
    Properties.empty.fnt_deserialize area =
      if bswap32 (gt area 0) ≠ 0x464E5431 then .ok (-1, .empty)
      else if 2 ^ 32 ≤ 2 + bswap32 (gt area 1) then .error .ub
      else if area.size < 2 + bswap32 (gt area 1) then .ok (-1, .empty)
      else .ok (0, ⟨(List.range (bswap32 (gt area 1))).map (fun i => (bswap32 (gt area (2 + i)), OOR_MARK))⟩) := by
  by_cases hm : bswap32 (gt area 0) ≠ 0x464E5431
  · rw [if_pos hm, C33_foreign (fun _ => hm)]
  · rw [if_neg hm]
    have hlt := bswap32_lt (gt area 1)
    by_cases hw : 2 ^ 32 ≤ 2 + bswap32 (gt area 1)
    · rw [if_pos hw]
      unfold fnt_deserialize
      simp only
      rw [if_neg (by omega), rd_gt (by omega), ok_bind, if_neg (show ¬ bswap32 (gt area 0) ≠ FNT1 from hm), rd_gt (by omega), ok_bind,
        if_neg (by omega), forN_error_at (j := area.size - 2) (e := .ub) (by omega)]
      · rfl
      · intro k s hk
        rw [rd_gt (by omega), ok_bind]
        exact ⟨_, rfl⟩
      · intro s
        rw [Nat.mod_eq_of_lt (by omega), show rd area (area.size - 2 + 2) = .error .ub by
          unfold rd; rw [Array.getElem?_eq_none (by omega)]]
        rfl
    · rw [if_neg hw]
      by_cases hc : area.size < 2 + bswap32 (gt area 1)
      · rw [if_pos hc, C33_bad_count_partial h2 hc (by omega)]
      · rw [if_neg hc]
        unfold fnt_deserialize
        simp only
        rw [if_neg (by omega), rd_gt (by omega), ok_bind, if_neg (show ¬ bswap32 (gt area 0) ≠ FNT1 from hm), rd_gt (by omega), ok_bind]
        generalize bswap32 (gt area 1) = cnt at *
        rw [Nat.mod_eq_of_lt (by omega), if_neg hc, readLocs_spec (by omega) h32, ok_bind]
        unfold Properties.empty
        dsimp only
        rw [List.nil_append]
        rfl

/-- C33: what `fnt_serialize` leaves in the last word is what was there before
(the word is never written when it is not used). -/
theorem C33_last_word_untouched {P : Properties} {area : Array Nat}
    (hfit : P.props.length + 2 < area.size) (h32 : area.size < 2 ^ 32) :
    ∃ area', P.fnt_serialize area = .ok (0, area') ∧
      gt area' (area.size - 1) = gt area (area.size - 1) := by
  obtain ⟨d, e, _, _, _, _, _, h⟩ := serialize_spec (P := P) (d := area) (by omega) h32
  exact ⟨d, e, h⟩

example : Fnt ⟨[(7, 1), (65535, 1), (2 ^ 32 - 1, 1)]⟩ ∧
    (⟨[(7, 1), (65535, 1), (2 ^ 32 - 1, 1)]⟩ : Properties).props.length + 2 < (Array.replicate 16 0).size := by
  refine ⟨?_, by decide⟩
  intro it h
  simp at h
  rcases h with rfl | rfl | rfl <;> decide
example : bswap32 0x464E5431 = 0x31544E46 := by decide

/-! ## C34 -/

/-- C34: reading back what was written restores the list of locations and
markers, whatever the 64-bit locations and 32-bit markers. -/
theorem C34_text_round_trip {P : Properties} (hP : ∀ it ∈ P.props, it.1 < 2 ^ 64 ∧ it.2 < 2 ^ 32) :
    Properties.empty.read P.write = .ok P := by
  unfold Properties.read
  have := readF_spec P.props (P.write.length + 1) Properties.empty
    (Nat.lt_succ_of_le (write_length P.props)) hP
  simpa [Properties.empty] using this

/-- C34: reading appends to the properties the object already had. -/
theorem C34_text_append {P Q : Properties} (hP : ∀ it ∈ P.props, it.1 < 2 ^ 64 ∧ it.2 < 2 ^ 32) :
    Q.read P.write = .ok ⟨Q.props ++ P.props⟩ :=
  readF_spec P.props (P.write.length + 1) Q (Nat.lt_succ_of_le (write_length P.props)) hP

example : (⟨[(0, 1), (1234567890123, 4294967295)]⟩ : Properties).write
    = "0 = 1\n1234567890123 = 4294967295\n".toList := by decide +kernel

end Quad.Props
