import Verif.Lemmas.FecNf4

/-!
# The packed Fermat code (C32)

`RsNf4.mkCode` is the constructor, `RsNf4.fec` the virtual functions of the object it makes.
-/

namespace Quad.Props
open Quad Quad.Spec

/-- C32: the constructor and the encoder succeed, and any `n_data` of the fragments, with their per-word flags, decode to the data; for
every word size, number of fragments, data and choice of fragments, in a scalar and in a vectorised build. -/
theorem C32_recovery_partial {b w k m pkt : Nat} {simd : Option (Nat × (Nat → Nat))} (h : Nf4Params b simd w k m) (mem : Nat → Nat)
    {data : Array (List Nat)} {T : Nat} (hd : Gf2nData w k data T) (mem' : Nat → Nat) :
    ∃ c, RsNf4.mkCode b simd w k m pkt mem = .ok c ∧ NsRecovers (RsNf4.fec c) w k m mem' data T := by
  obtain ⟨c, e, hw, S, n, l2, g, g2, okLen, G⟩ := RsNf4.mkCode_spec h mem
  subst hw
  exact ⟨c, e, FftCode.nsRecovers (RsNf4.hspec G) G.sys G.n_outputs G.n_data mem' hd⟩

/-- words of one byte, or of more than eight, are refused -/
theorem C32_refused_word_sizes {b w k m pkt : Nat} {simd : Option (Nat × (Nat → Nat))} (h : w < 2 ∨ 8 < w) (mem : Nat → Nat) :
    RsNf4.mkCode b simd w k m pkt mem = .error .assertFail := by
  unfold RsNf4.mkCode
  rcases h with h | h
  · simp only [cassert, decide_eq_false (show ¬ w ≥ 2 by omega)]; rfl
  · simp only [cassert, decide_eq_true (show w ≥ 2 by omega), decide_eq_false (show ¬ w ≤ 8 by omega)]; rfl

example : Nf4Params 32 none 2 3 5 ∧ Nf4Params 64 none 4 10 6 ∧ Nf4Params 128 (some (32, fun _ => 255)) 8 32768 32768 :=
  ⟨⟨by norm_num, ⟨by norm_num, by norm_num, by norm_num, by simp⟩, by norm_num, by norm_num, by norm_num, by norm_num⟩,
    ⟨by norm_num, build64, by norm_num, by norm_num, by norm_num, by norm_num⟩,
    ⟨by norm_num, build128, by norm_num, by norm_num, by norm_num, by norm_num⟩⟩

end Quad.Props
