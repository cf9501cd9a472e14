import Verif.Lemmas.FecFftBuild

/-!
# The non-systematic codes on transforms over GF(2^n) and GF(p) (C30, C31)

`RsGf2nFft.mkBase` and `RsGfpFft.mkBase` are the constructors, `RsGf2nFft.fec` and `RsGfpFft.fec` the virtual functions
of the object they make.  `mem`, `junk` and `junk3` are the contents of uninitialised memory.
-/

namespace Quad.Props
open Quad Quad.Spec

/-- C30 for the code on the multiplicative FFT: the encoder succeeds, and any `n_data` of its fragments decode to the
data, for every supported word size, number of fragments, data and choice of fragments. -/
theorem C30_multiplicative_recovery {b w k m : Nat} (h : Gf2nFftParams b w k m) (mem : Nat → Nat) (junk : Nat → Nat → Nat)
    (junk3 : Nat → Nat → Nat → Nat) {data : Array (List Nat)} {T : Nat} (hd : Gf2nData w k data T) (mem' : Nat → Nat) :
    ∃ B, RsGf2nFft.mkBase b w k m mem junk junk3 = .ok B ∧ NsRecovers (RsGf2nFft.fec B) w k m mem' data T := by
  obtain ⟨K, _, B, S, n, l2, g2, e, hw, G⟩ := RsGf2nFft.mkBase_spec h mem junk junk3
  subst hw
  exact ⟨B, e, FftCode.recovers G (RsGf2nFft.is_fec B) (RsGf2nFft.post_spec B _) (RsGf2nFft.prep_spec B _) mem' hd⟩

/-- C31: the encoder succeeds, and any `n_data` of its fragments, with their properties, decode to the data, including
the symbols that do not fit a word; for every word size, number of fragments, data and choice of fragments allowed by
`GfpParams`.  Missing: words of 4 bytes with more than 4096 data fragments, for which the property is false
(`C31_constructor_reads_out_of_bounds`, `C31_second_transform_too_long`), or with more than 1073747968 fragments, for which it is
false too (`C31_first_transform_too_long`). -/
theorem C31_recovery_partial {b db w k m : Nat} (h : GfpParams b db w k m) (mem : Nat → Nat) {data : Array (List Nat)} {T : Nat}
    (hd : Gf2nData w k data T) (mem' : Nat → Nat) :
    ∃ c, RsGfpFft.mkBase b db w k m mem = .ok c ∧ NsRecovers (RsGfpFft.fec b c) w k m mem' data T := by
  obtain ⟨p, _, B, S, n, l2, g2, e, hw, hp, G⟩ := RsGfpFft.mkBase_spec h mem
  subst hw
  exact ⟨(B, 256 ^ B.word_size), e, FftCode.recovers G (RsGfpFft.is_fec b _) (RsGfpFft.post_spec (by positivity) (G.code_len.trans G.n_outputs.symm))
    (RsGfpFft.prep_spec hp) mem' hd⟩

/-- C31 fails for words of 4 bytes and more than 4096 data fragments: the length of the second transform is not a power
of two, and its constructor takes that length for an index in the list of prime factors. -/
theorem C31_constructor_reads_out_of_bounds {k m : Nat} (hm : 0 < m) (hlen : k + m ≤ 1073747968) (hk : 4096 < k) (hk' : k ≤ 536873984)
    (mem : Nat → Nat) : RsGfpFft.mkBase 64 128 4 k m mem = ub :=
  RsGfpFft.mkBase_ub hm hlen hk hk' mem

/-- C31 fails with more than 536873984 data fragments: the length of the second transform is negative as an `int`, and the
constructor fails to allocate a vector of that length. -/
theorem C31_second_transform_too_long {k m : Nat} (hm : 0 < m) (hlen : k + m ≤ 1073747968) (hk : 536873984 < k)
    (mem : Nat → Nat) : RsGfpFft.mkBase 64 128 4 k m mem = .error (.throws .badAlloc) := by
  rw [RsGfpFft.mkBase_second hm hlen (by omega), if_neg (by omega)]

/-- C31 fails with more than 1073747968 fragments, as many as an `unsigned` can count: the length of the first transform, or of one it is made of, is
negative as an `int`. -/
theorem C31_first_transform_too_long {k m : Nat} (hlen : 1073747968 < k + m) (hlt : k + m < 2 ^ 32)
    (mem : Nat → Nat) : RsGfpFft.mkBase 64 128 4 k m mem = .error (.throws .badAlloc) :=
  RsGfpFft.mkBase_first hlen hlt mem

example : (0 < 1 ∧ 5000 + 1 ≤ 1073747968 ∧ 4096 < 5000 ∧ 5000 ≤ 536873984) ∧ (600000000 + 1 ≤ 1073747968 ∧ 536873984 < 600000000) ∧
    (1073747968 < 10 + 2147483648 ∧ 10 + 2147483648 < 2 ^ 32) := by decide

example : Gf2nFftParams 32 1 10 6 ∧ Gf2nFftParams 128 16 1000 42000000 :=
  ⟨⟨by decide, ⟨by decide, by decide, by decide, by decide⟩, by decide, by decide, by decide, by decide⟩,
    ⟨by decide, ⟨by decide, by decide, by decide, by decide⟩, by decide, by decide, by decide, by decide⟩⟩

example : GfpParams 32 64 1 10 6 ∧ GfpParams 64 128 2 1000 24 ∧ GfpParams 64 128 4 4096 1000000000 :=
  ⟨⟨by decide, by decide, by decide⟩, ⟨by decide, by decide, by decide⟩, ⟨by decide, by decide, by decide⟩⟩

example : Gf2nData 2 3 #[[1, 2, 3, 4], [5, 6, 7, 8, 9], [0, 0, 255, 255]] 2 :=
  ⟨rfl, by decide, by decide, 0, by decide, by decide⟩

end Quad.Props
