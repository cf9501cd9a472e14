import Verif.Lemmas.FecFntWords
import Verif.Props.Fec

/-! # C25: the systematic mode word by word, encoding -/

namespace Quad.Props
open Quad

/-- In systematic mode encoding streams word by word is undefined behaviour as soon as the streams hold one word: the transform writes as many
words as it has points, more than `n_parities`, to a vector of `n_parities` words (fec_base.h:422, fec_rs_fnt.h:165, 184). -/
theorem C25_horizontal_systematic_encode_undefined {b db w k m : Nat} (hT : WordType b db) (hP : FntParams w k m) (pkt : Nat) (mem : Nat → Nat) :
    ∃ B, RsFnt.mkBase b db true w k m pkt mem = .ok B ∧ B.n_data = k ∧ B.n_outputs = m ∧
      ∀ (data outs : Array (List Nat)) (props : Array Properties) (mem' : Nat → Nat), data.size = k → outs.size = m → props.size = m →
        (∀ i, i < k → w ≤ (gt data i).length) → (RsFnt.fec B).encode_streams_horizontal data outs props mem' = .error .ub := by
  have : Fact (2 ^ (8 * w) + 1).Prime := ⟨hP.prime⟩
  have h2 : 2 ^ (8 * w) + 1 ≠ 2 := by rcases hP.hw with rfl | rfl <;> decide
  obtain ⟨g, h⟩ := RsFnt.mkBase_all (b := b) (db := db) (w := w) (k := k) (m := m) (p := 2 ^ (8 * w) + 1)
    (by rcases hP.hw with rfl | rfl <;> decide) rfl h2
    (by rcases hT with ⟨rfl, rfl⟩ | ⟨rfl, rfl⟩ <;> rcases hP.hw with rfl | rfl <;> exact ⟨by decide, by decide, by decide⟩)
    (by rcases hT with ⟨rfl, rfl⟩ | ⟨rfl, rfl⟩ <;> rfl) hP.hk hP.hm hP.len hP.two
  obtain ⟨B, e, hs, hw, _, S, n, l2, g2, okL, G, hF⟩ := h true pkt mem
  refine ⟨B, e, G.n_data, by rw [G.n_outputs, hs]; rfl, fun data outs props mem' hd ho hp hl => ?_⟩
  have hk := hP.hk
  have hle := G.le
  exact RsFnt.encode_horizontal_ub e hs G hF (by rw [hw]; rcases hP.hw with h | h <;> simp [WordSize, h]) (by omega) hd ho hp
    (by rw [hw]; exact hl)

/-- three data and two parity fragments of 2-byte words, and three streams of one word, meet the hypotheses -/
example : FntParams 2 3 2 ∧ WordType 32 64 ∧ ∀ i, i < 3 → 2 ≤ (gt #[[1, 2], [3, 4], [255, 255]] i).length :=
  ⟨⟨by simp, by simp, by simp, by simp, by simp⟩, by simp [WordType], by decide⟩

end Quad.Props
