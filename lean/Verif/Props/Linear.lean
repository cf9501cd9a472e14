import Verif.Lemmas.Linear
import Verif.Lemmas.FecFftAddBuild
import Verif.Lemmas.FecGf2nRec

/-!
# C79: the fragments of a sum

`CodesSums E w k n` (Spec/Linear.lean) is C79 for the code `E`.
-/

namespace Quad.Props
open Quad Quad.Spec Quad.Gf2nRec

/-- C79 for the codes with matrices over GF(2^n). -/
theorem C79_matrix {b w k m : Nat} (h : Gf2nParams b w k m) (type : RsGf2n.MatType) (mem : Nat → Nat) (junk : Nat → Nat → Nat)
    (junk3 : Nat → Nat → Nat → Nat) : ∃ E, RsGf2n.mk' b w k m type mem junk junk3 = .ok E ∧ CodesSums E w k m := by
  obtain ⟨hws, hw16⟩ := Gf2nRec.gf2n_wordSize h
  haveI := fact_of (size_of h.field.size)
  obtain ⟨O, B, mat, f, e, i1, v1, hu, _⟩ := RsGf2n.mk'_spec h.field hw16 h.hk h.len type mem junk junk3
  have hV : ∀ a, B.sim.V a ↔ a < 256 ^ w := fun a => by show a < 2 ^ (8 * w) ↔ _; rw [Nat.pow_mul]
  have H := RsGf2n.hspec B.full hws hV h.hk i1 v1
  exact ⟨_, e, H.codesSums rfl rfl rfl (fun _ _ _ _ => rfl)
    (fun a a' f ha ha' hf => RsGf2n.stored_xor (S := B.sim) B.full hV (fun _ _ => rfl) h.hk i1 v1 ha ha' hf)⟩

/-- C79 for the code on the multiplicative FFT over GF(2^n). -/
theorem C79_multiplicative {b w k m : Nat} (h : Gf2nFftParams b w k m) (mem : Nat → Nat) (junk : Nat → Nat → Nat)
    (junk3 : Nat → Nat → Nat → Nat) : ∃ B, RsGf2nFft.mkBase b w k m mem junk junk3 = .ok B ∧ CodesSums (RsGf2nFft.fec B) w k (k + m) := by
  obtain ⟨K, _, B, S, n, l2, g2, e, hw, G⟩ := RsGf2nFft.mkBase_spec h mem junk junk3
  subst hw
  have H := FftCode.hspec G (RsGf2nFft.is_fec B) (RsGf2nFft.post_spec B _) (RsGf2nFft.prep_spec B _)
  exact ⟨B, e, H.codesSums rfl G.n_data G.n_outputs (fun a f ha _ => FftCode.mark_none G ha f)
    (fun a a' f ha ha' _ => FftCode.stored_xor G (RsGf2nFft.add_xor e) ha ha' f)⟩

/-- C79 for the code on the additive FFT. -/
theorem C79_additive {b w k m : Nat} (h : Gf2nFftAddParams b w k m) (mem : Nat → Nat) (junk : Nat → Nat → Nat)
    (junk3 : Nat → Nat → Nat → Nat) : ∃ c, RsGf2nFftAdd.mkCode b w k m mem junk junk3 = .ok c ∧ CodesSums (RsGf2nFftAdd.fec c) w k (k + m) := by
  obtain ⟨K, _, c, S, n, pt, e, G, _⟩ := RsGf2nFftAdd.mkCode_spec h mem junk junk3
  exact ⟨c, e, (RsGf2nFftAdd.hspec' G).codesSums G.word G.n_data G.n_outputs (fun _ _ _ _ => rfl)
    (fun a a' f ha ha' hf => RsGf2nFftAdd.sym_xor G (RsGf2nFftAdd.add_xor e) ha ha' (by have := G.le; omega))⟩

/-! ### the hypotheses are met -/

/-- two words in each of three streams, one of them with a byte more, which is not coded -/
example : Gf2nData 2 3 #[[1, 2, 3, 4], [5, 6, 7, 8, 9], [0, 0, 255, 255]] 2 ∧ Gf2nData 2 3 #[[1, 2, 3, 5], [5, 6, 7, 7, 7], [8, 0, 255, 255]] 2 ∧
    (∀ i, i < 3 → (gt #[[1, 2, 3, 4], [5, 6, 7, 8, 9], [0, 0, 255, 255]] i).length = (gt #[[1, 2, 3, 5], [5, 6, 7, 7, 7], [8, 0, 255, 255]] i).length) ∧
    xorStreams 3 #[[1, 2, 3, 4], [5, 6, 7, 8, 9], [0, 0, 255, 255]] #[[1, 2, 3, 5], [5, 6, 7, 7, 7], [8, 0, 255, 255]] =
      #[[0, 0, 0, 1], [0, 0, 0, 15, 14], [8, 0, 0, 0]] :=
  ⟨⟨rfl, by decide, by decide, 0, by decide, by decide⟩, ⟨rfl, by decide, by decide, 0, by decide, by decide⟩, by decide, by decide⟩

end Quad.Props
