import Verif.Lemmas.AnyBasisCode
import Verif.Props.Linear
import Verif.Props.Pieces

/-!
# The code on the additive FFT, with any number of fragments up to `2^30`

`RsGf2nFftAdd` is built with more fragments than its field has elements, and then it does not recover the data
(`C48_additive_accepts_too_long`).  What it computes still depends on each word of the data alone, and takes sums to sums.
-/

namespace Quad.Props
open Quad Quad.Spec

private theorem add_params {b w k m : Nat} (hw : w ∈ [1, 2, 4, 8, 16]) (hF : BinSupported b (8 * w)) (hk : 0 < k) (hm : 0 < m) (hint : k + m ≤ 2 ^ 30) :
    Gf2nFftAddParams b w k m ∨ w = 1 ∨ w = 2 := by
  by_cases h : w = 1 ∨ w = 2
  · exact .inr h
  · refine .inl ⟨hw, hF, hk, hm, hint.trans (Nat.pow_le_pow_right (by decide) ?_), hint⟩
    simp at hw
    omega

/-- C78 for the code on the additive FFT, also with more fragments than the field has elements. -/
theorem C78_additive_any_length {b w k m : Nat} (hw : w ∈ [1, 2, 4, 8, 16]) (hF : BinSupported b (8 * w)) (hk : 0 < k) (hm : 0 < m)
    (hint : k + m ≤ 2 ^ 30) (hb : k + m < 2 ^ (b - 1)) (mem : Nat → Nat) (junk : Nat → Nat → Nat) (junk3 : Nat → Nat → Nat → Nat) :
    ∃ c, RsGf2nFftAdd.mkCode b w k m mem junk junk3 = .ok c ∧ AnyTwo (RsGf2nFftAdd.fec c) w k (k + m) (AgreeWithData w k (k + m)) := by
  rcases add_params hw hF hk hm hint with h | h
  · exact C78_additive h mem junk junk3
  · obtain ⟨K, _, c, S, n, e, G⟩ := RsGf2nFftAdd.mkCode_any h hF hk hm hb mem junk junk3
    exact ⟨c, e, G.hspec.anyTwo_local G.word G.n_data G.n_outputs⟩

/-- C79 for the code on the additive FFT, also with more fragments than the field has elements. -/
theorem C79_additive_any_length {b w k m : Nat} (hw : w ∈ [1, 2, 4, 8, 16]) (hF : BinSupported b (8 * w)) (hk : 0 < k) (hm : 0 < m)
    (hint : k + m ≤ 2 ^ 30) (hb : k + m < 2 ^ (b - 1)) (mem : Nat → Nat) (junk : Nat → Nat → Nat) (junk3 : Nat → Nat → Nat → Nat) :
    ∃ c, RsGf2nFftAdd.mkCode b w k m mem junk junk3 = .ok c ∧ CodesSums (RsGf2nFftAdd.fec c) w k (k + m) := by
  rcases add_params hw hF hk hm hint with h | h
  · exact C79_additive h mem junk junk3
  · obtain ⟨K, _, c, S, n, e, G⟩ := RsGf2nFftAdd.mkCode_any h hF hk hm hb mem junk junk3
    exact ⟨c, e, G.hspec.codesSums G.word G.n_data G.n_outputs (fun _ _ _ _ => rfl) (fun a a' f ha ha' _ => G.sym_xor ha ha' f)⟩

/-- C80 for the code on the additive FFT, also with more fragments than the field has elements. -/
theorem C80_additive_any_length {b w k m : Nat} (hw : w ∈ [1, 2, 4, 8, 16]) (hF : BinSupported b (8 * w)) (hk : 0 < k) (hm : 0 < m)
    (hint : k + m ≤ 2 ^ 30) (hb : k + m < 2 ^ (b - 1)) (mem : Nat → Nat) (junk : Nat → Nat → Nat) (junk3 : Nat → Nat → Nat → Nat) :
    ∃ c, RsGf2nFftAdd.mkCode b w k m mem junk junk3 = .ok c ∧ CodesPieces (RsGf2nFftAdd.fec c) w k (k + m) := by
  rcases add_params hw hF hk hm hint with h | h
  · exact C80_additive h mem junk junk3
  · obtain ⟨K, _, c, S, n, e, G⟩ := RsGf2nFftAdd.mkCode_any h hF hk hm hb mem junk junk3
    exact ⟨c, e, G.hspec.codesPieces G.word G.n_data G.n_outputs⟩

/-- words of one byte, 3 data fragments and a thousand parities -/
example : BinSupported 32 (8 * 1) ∧ 3 + 1000 ≤ 2 ^ 30 ∧ 3 + 1000 < 2 ^ (32 - 1) ∧ ¬ Gf2nFftAddParams 32 1 3 1000 :=
  ⟨⟨by decide, by decide, by decide, by decide⟩, by decide, by decide, fun h => absurd h.len (by decide)⟩

end Quad.Props
