import Verif.Lemmas.FecFftAddBuild

/-!
# The non-systematic code on the additive transform (C30)

`RsGf2nFftAdd.mkCode` is the constructor, `RsGf2nFftAdd.fec` the virtual functions of the object it makes.
-/

namespace Quad.Props
open Quad Quad.Spec

/-- C30 for the code on the additive FFT: the encoder succeeds, and any `n_data` of its fragments, whether or not the one of the
zero point is among them, decode to the data, for every supported word size, number of fragments, data and choice of
fragments.  Missing: half the elements of the field or more as data fragments, for which it is false
(`C30_additive_decoding_asserts`). -/
theorem C30_additive_recovery_partial {b w k m : Nat} (h : Gf2nFftAddParams b w k m) (h2 : 2 * k < 2 ^ (8 * w)) (mem : Nat → Nat)
    (junk : Nat → Nat → Nat) (junk3 : Nat → Nat → Nat → Nat) {data : Array (List Nat)} {T : Nat} (hd : Gf2nData w k data T)
    (mem' : Nat → Nat) :
    ∃ c, RsGf2nFftAdd.mkCode b w k m mem junk junk3 = .ok c ∧ NsRecovers (RsGf2nFftAdd.fec c) w k m mem' data T := by
  obtain ⟨K, _, c, S, n, pt, e, G, hl, _⟩ := RsGf2nFftAdd.mkCode_spec h mem junk junk3
  refine ⟨c, e, ?_⟩
  have hw : (RsGf2nFftAdd.fec c).base.word_size = w := G.word
  have := FftCode.nsRecovers (RsGf2nFftAdd.hspec G (hl h2)) (k := k) (m := m) G.sys G.n_outputs G.n_data mem' (data := data) (T := T)
    (by rw [hw]; exact hd)
  rwa [hw] at this

/-- C30 fails for the code on the additive FFT when the data fragments are half the elements of the field or more, for instance 128
data fragments with words of one byte: the code is built, but decoding enough fragments always fails an assertion. -/
theorem C30_additive_decoding_asserts {b w k m : Nat} (h : Gf2nFftAddParams b w k m) (h2 : 2 ^ (8 * w) ≤ 2 * k) (mem : Nat → Nat)
    (junk : Nat → Nat → Nat) (junk3 : Nat → Nat → Nat → Nat) :
    ∃ c, RsGf2nFftAdd.mkCode b w k m mem junk junk3 = .ok c ∧
      ∀ (datas pars outs : Array (Option (List Nat))) (props : Array Properties) (mem' : Nat → Nat),
        pars.size = k + m → props.size = k + m → outs.size = k → k ≤ nAvail pars →
        (RsGf2nFftAdd.fec c).decode_streams_horizontal datas pars props outs mem' = .error .assertFail := by
  obtain ⟨K, _, c, S, n, pt, e, G, _, hl⟩ := RsGf2nFftAdd.mkCode_spec h mem junk junk3
  exact ⟨c, e, fun datas pars outs props mem' p1 p2 p3 p4 => RsGf2nFftAdd.decode_fails G (hl h2) mem' p1 p2 p3 p4⟩

example : Gf2nFftAddParams 32 1 100 156 ∧ 2 * 100 < 2 ^ (8 * 1) ∧ Gf2nFftAddParams 128 16 1000 24 ∧ 2 * 1000 < 2 ^ (8 * 16) :=
  ⟨⟨by decide, ⟨by decide, by decide, by decide, by decide⟩, by decide, by decide, by decide, by decide⟩, by decide,
    ⟨by decide, ⟨by decide, by decide, by decide, by decide⟩, by decide, by decide, by decide, by decide⟩, by decide⟩

example : Gf2nFftAddParams 32 1 128 10 ∧ 2 ^ (8 * 1) ≤ 2 * 128 :=
  ⟨⟨by decide, ⟨by decide, by decide, by decide, by decide⟩, by decide, by decide, by decide, by decide⟩, by decide⟩

end Quad.Props
