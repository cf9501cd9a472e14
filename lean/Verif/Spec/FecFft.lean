import Verif.Model.FecFft
import Verif.Spec.FecGf2n

/-!
# Vocabulary for the non-systematic codes built on transforms (C30, C31)
-/

namespace Quad.Spec

/-- the non-systematic code object `E` codes `data` without error, and decoding any selection of at least `k` of the
`k + m` fragments, with their properties, appends the complete words of every data stream to the output streams -/
def NsRecovers {Γ : Type} (E : Fec Γ) (w k m : Nat) (mem : Nat → Nat) (data : Array (List Nat)) (T : Nat) : Prop :=
  ∃ frags fprops,
    E.encode_streams_horizontal data (Array.replicate (k + m) []) (Array.replicate (k + m) .empty) mem = .ok (frags, fprops) ∧
    frags.size = k + m ∧ (∀ f, f < k + m → (gt frags f).length = T * w) ∧
    ∀ (datas pars outs : Array (Option (List Nat))) (props : Array Properties) (mem' : Nat → Nat),
      pars.size = k + m → props.size = k + m → outs.size = k →
      (∀ f s, f < k + m → gt pars f = some s → s = gt frags f ∧ gt props f = gt fprops f) →
      k ≤ nAvail pars →
      ∃ res, E.decode_streams_horizontal datas pars props outs mem' = .ok (true, res) ∧ res.size = k ∧
        ∀ i, i < k → gt res i = (gt outs i).map (fun s => s ++ (gt data i).take (T * w))

/-- the longest code on the multiplicative FFT over GF(2^(8w)): 255 for words of one byte, `3 * 5 * 17 * 257` for 2 and 4 bytes and
`3 * 5 * 17 * 257 * 641` for 8 and 16 bytes.  The next prime that divides the number of non-zero elements, if any, is 65537. -/
def fftMax (w : Nat) : Nat := if w = 1 then 255 else if w ≤ 4 then 65535 else 42007935

/-- parameters of the code over GF(2^(8w)) on the multiplicative FFT: a word of 1, 2, 4, 8 or 16 bytes that the word
type of `b` bits has room for, at least one data and one parity fragment; `k + m` and `2 k` at most `fftMax w` -/
structure Gf2nFftParams (b w k m : Nat) : Prop where
  hw : w ∈ [1, 2, 4, 8, 16]
  field : BinSupported b (8 * w)
  hk : 0 < k
  hm : 0 < m
  len : k + m ≤ fftMax w
  two : 2 * k ≤ fftMax w

/-- parameters of the code over GF(2^(8w)) on the additive FFT: a word of 1, 2, 4, 8 or 16 bytes that the word type of `b` bits
has room for, at least one data and one parity fragment, at most as many fragments as the field has elements and as
an `int` counts up to the next power of two -/
structure Gf2nFftAddParams (b w k m : Nat) : Prop where
  hw : w ∈ [1, 2, 4, 8, 16]
  field : BinSupported b (8 * w)
  hk : 0 < k
  hm : 0 < m
  len : k + m ≤ 2 ^ (8 * w)
  int : k + m ≤ 2 ^ 30

/-- parameters of the code over prime fields: words of 1 or 2 bytes in a type of 32 or 64 bits, with `k + m` and
`2 k` at most the order of the field, or words of 4 bytes in a type of 64 bits with `2 k` at most 8192, the largest
power of two that divides the order, and `k + m` at most `2^11 * 29 * 101 * 179` -/
structure GfpParams (b db w k m : Nat) : Prop where
  word : ((w = 1 ∨ w = 2) ∧ (b = 32 ∧ db = 64 ∨ b = 64 ∧ db = 128) ∧ k + m ≤ 2 ^ (8 * w) ∧ 2 * k ≤ 2 ^ (8 * w)) ∨
    (w = 4 ∧ b = 64 ∧ db = 128 ∧ k + m ≤ 1073747968 ∧ 2 * k ≤ 8192)
  hk : 0 < k
  hm : 0 < m

end Quad.Spec
