import Verif.Props.Params
import Verif.Props.Pieces

/-!
# The code over prime fields, whenever its constructor returns

The constructor of `RsGfpFft` does not return for all the parameters a user may ask for (C48), but when it does, the code has its properties.
-/

namespace Quad.Props
open Quad Quad.Spec

/-- the constructor returns only with the parameters of `GfpParams` -/
theorem gfp_accepted {b db w k m : Nat} (hT : WordType b db) (hk : 0 < k) (hm : 0 < m) (hlt : k + m < 2 ^ 32) {mem : Nat → Nat} {c : FecBase × Nat}
    (e : RsGfpFft.mkBase b db w k m mem = .ok c) : GfpParams b db w k m := by
  by_cases hb : w = 4 → b = 64
  · obtain ⟨h1, h2, h3⟩ := C48_gfp_partial hT hb hk hm hlt mem
    by_cases hw : w = 1 ∨ w = 2
    · obtain ⟨h4, h5⟩ := (h2 hw).1.1 ⟨c, e⟩
      exact ⟨.inl ⟨hw, hT, h4, h5⟩, hk, hm⟩
    · by_cases hw4 : w = 4
      · obtain ⟨h4, h5⟩ := (h3 hw4).1.1 ⟨c, e⟩
        have hb := hb hw4
        exact ⟨.inr ⟨hw4, hb, by rcases hT with ⟨h, _⟩ | ⟨_, h⟩ <;> omega, h4, h5⟩, hk, hm⟩
      · rcases h1 ⟨fun h => hw (.inl h), fun h => hw (.inr h), hw4⟩ with hr | ⟨x, hr⟩ <;> rw [e] at hr <;> cases hr
  · push_neg at hb
    obtain ⟨rfl, hb⟩ := hb
    rcases hT with ⟨rfl, rfl⟩ | ⟨rfl, _⟩
    · cases e
    · exact absurd rfl hb

/-- C31, whenever the constructor returns: any `n_data` fragments, with their properties, decode to the data.  Missing: the constructor does not
always return (`C31_constructor_reads_out_of_bounds`). -/
theorem C31_whenever_built_partial {b db w k m : Nat} (hT : WordType b db) (hk : 0 < k) (hm : 0 < m) (hlt : k + m < 2 ^ 32) {mem : Nat → Nat}
    {c : FecBase × Nat} (e : RsGfpFft.mkBase b db w k m mem = .ok c) {data : Array (List Nat)} {T : Nat} (hd : Gf2nData w k data T)
    (mem' : Nat → Nat) : NsRecovers (RsGfpFft.fec b c) w k m mem' data T := by
  obtain ⟨c', e', h⟩ := C31_recovery_partial (gfp_accepted hT hk hm hlt e) mem hd mem'
  rw [e] at e'
  cases e'
  exact h

/-- C77, whenever the constructor returns. -/
theorem C77_gfp {b db w k m : Nat} (hT : WordType b db) (hk : 0 < k) (hm : 0 < m) (hlt : k + m < 2 ^ 32) {mem : Nat → Nat}
    {c : FecBase × Nat} (e : RsGfpFft.mkBase b db w k m mem = .ok c) : AnyTwo (RsGfpFft.fec b c) w k (k + m) (FarApart w k (k + m) m false) := by
  obtain ⟨c', e', h⟩ := C77_gfp_partial (gfp_accepted hT hk hm hlt e) mem
  rw [e] at e'
  cases e'
  exact h

/-- C78, whenever the constructor returns. -/
theorem C78_gfp {b db w k m : Nat} (hT : WordType b db) (hk : 0 < k) (hm : 0 < m) (hlt : k + m < 2 ^ 32) {mem : Nat → Nat}
    {c : FecBase × Nat} (e : RsGfpFft.mkBase b db w k m mem = .ok c) : AnyTwo (RsGfpFft.fec b c) w k (k + m) (AgreeWithData w k (k + m)) := by
  obtain ⟨c', e', h⟩ := C78_gfp_partial (gfp_accepted hT hk hm hlt e) mem
  rw [e] at e'
  cases e'
  exact h

/-- C80, whenever the constructor returns. -/
theorem C80_gfp {b db w k m : Nat} (hT : WordType b db) (hk : 0 < k) (hm : 0 < m) (hlt : k + m < 2 ^ 32) {mem : Nat → Nat}
    {c : FecBase × Nat} (e : RsGfpFft.mkBase b db w k m mem = .ok c) : CodesPieces (RsGfpFft.fec b c) w k (k + m) := by
  obtain ⟨c', e', h⟩ := C80_gfp_partial (gfp_accepted hT hk hm hlt e) mem
  rw [e] at e'
  cases e'
  exact h

/-- the constructor returns with words of 4 bytes, 4096 data fragments and a thousand million parities -/
example : WordType 64 128 ∧ (∃ c, RsGfpFft.mkBase 64 128 4 4096 1000000000 (fun _ => 0) = .ok c) ∧ 4096 + 1000000000 < 2 ^ 32 :=
  ⟨.inr ⟨rfl, rfl⟩, ((C48_gfp_partial (.inr ⟨rfl, rfl⟩) (fun _ => rfl) (by decide) (by decide) (by decide) _).2.2 rfl).1.2 ⟨by decide, by decide⟩, by decide⟩

end Quad.Props
