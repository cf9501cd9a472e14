import Verif.Model.Counts
import Verif.Props.Params

/-!
# C48: numbers of fragments whose sum does not fit

The sum of the numbers of fragments is computed in an `unsigned` and looked up as a `T`.  As long as it fits, the constructor is the one of
the other theorems; when it does not, the constructor tests another number.
-/

namespace Quad
open Spec

/-- the parts of a code that record the numbers of fragments -/
def FecBase.withCounts (B : FecBase) (sys : Bool) (m code_len : Nat) : FecBase :=
  { B with n_parities := m, code_len := code_len, n_outputs := if sys then m else code_len }

/-- the wrapping constructor builds the code of a number of parities whose sum with `k` is what the sum wraps to -/
theorem RsFnt.mkUnsigned_eq {b db w k m m' pkt : Nat} (sys : Bool) (mem : Nat → Nat) (h1 : wrap b (wrap 32 (m + k)) = m' + k)
    (h2 : wrap 32 (2 * k) = 2 * k) (h3 : wrap b (2 * k) = 2 * k) :
    RsFnt.mkUnsigned b db sys w k m pkt mem = (RsFnt.mkBase b db sys w k m' pkt mem).map (·.withCounts sys m (wrap 32 (k + m))) := by
  unfold RsFnt.mkUnsigned RsFnt.mkBase
  show _ = _ <$> _
  simp only [h1, h2, h3, map_bind]
  rfl

namespace Props

/-- C48, `RsFnt` with counts of any size: as long as the sums fit `unsigned` and `T`, the constructor is the one with unbounded numbers. -/
theorem C48_fnt_counts {b db w k m pkt : Nat} (sys : Bool) (mem : Nat → Nat) (h : k + m < 2 ^ min 32 b) (h2 : 2 * k < 2 ^ min 32 b) :
    RsFnt.mkUnsigned b db sys w k m pkt mem = RsFnt.mkBase b db sys w k m pkt mem := by
  have hmin : 2 ^ min 32 b ≤ 2 ^ 32 ∧ 2 ^ min 32 b ≤ 2 ^ b :=
    ⟨Nat.pow_le_pow_right (by omega) (by omega), Nat.pow_le_pow_right (by omega) (by omega)⟩
  have w32 : ∀ x, x < 2 ^ min 32 b → wrap 32 x = x := fun x hx => Nat.mod_eq_of_lt (by omega)
  have wb : ∀ x, x < 2 ^ min 32 b → wrap b x = x := fun x hx => Nat.mod_eq_of_lt (by omega)
  unfold RsFnt.mkUnsigned RsFnt.mkBase
  simp only [w32 _ h, w32 _ h2, wb _ h2, w32 (m + k) (by omega), wb (m + k) (by omega)]

/-- C48 for the constructor with counts of any size: below the limits of the types it accepts exactly the parameters the code works for. -/
theorem C48_fnt_unsigned {b db w k m pkt : Nat} (sys : Bool) (hT : WordType b db) (hk : 0 < k) (hm : 0 < m) (h : k + m < 2 ^ 32) (h2 : 2 * k < 2 ^ 32)
    (mem : Nat → Nat) :
    ((∃ B, RsFnt.mkUnsigned b db sys w k m pkt mem = .ok B) ↔ (w = 1 ∨ w = 2) ∧ k + m ≤ 2 ^ (8 * w) ∧ 2 * k ≤ 2 ^ (8 * w)) ∧
    ((∃ B, RsFnt.mkUnsigned b db sys w k m pkt mem = .ok B) ∨ Refused (RsFnt.mkUnsigned b db sys w k m pkt mem)) := by
  have hb : min 32 b = 32 := by rcases hT with ⟨rfl, _⟩ | ⟨rfl, _⟩ <;> rfl
  rw [C48_fnt_counts sys mem (by rw [hb]; exact h) (by rw [hb]; exact h2)]
  exact C48_fnt sys hT hk hm h mem

/-- C48 fails for `RsFnt<uint16_t>`: when the number of fragments is a small one modulo `2^16`, the constructor accepts it, although the field has
256 elements that can be points; the code has as many outputs as asked for, and a transform of at most 256 points. -/
theorem C48_fnt_uint16_wraps {k m pkt : Nat} (hk : 0 < k) (h2 : 2 * k ≤ 256) (hlong : 256 < k + m) (hlt : k + m < 2 ^ 32)
    (hs : k < (k + m) % 2 ^ 16 ∧ (k + m) % 2 ^ 16 ≤ 256) (mem : Nat → Nat) :
    ∃ B, RsFnt.mkUnsigned 16 32 false 1 k m pkt mem = .ok B ∧ B.n_outputs = k + m ∧ B.n ≤ 256 ∧ 256 < B.n_outputs := by
  obtain ⟨hs1, hs2⟩ := hs
  have e1 : wrap 16 (wrap 32 (m + k)) = ((k + m) % 2 ^ 16 - k) + k := by
    unfold wrap
    rw [Nat.add_comm m k, Nat.mod_eq_of_lt hlt]
    omega
  have hw : wrap 32 (k + m) = k + m := Nat.mod_eq_of_lt hlt
  have hm' : 0 < (k + m) % 2 ^ 16 - k := by omega
  obtain ⟨B, eB⟩ := (C48_fnt_uint16 (pkt := pkt) false hk hm' (by omega) mem).1.2 ⟨by omega, h2⟩
  refine ⟨_, by rw [RsFnt.mkUnsigned_eq false mem e1 (Nat.mod_eq_of_lt (by omega)) (Nat.mod_eq_of_lt (by omega)), eB]; rfl, hw, ?_, by rw [show (FecBase.withCounts B false m (wrap 32 (k + m))).n_outputs = k + m from hw]; exact hlong⟩
  show B.n ≤ 256
  have hfit : (RingModN.mk 16 32 true 257).Fits := ⟨by decide, by decide, by decide⟩
  obtain ⟨O, eO, hring, _⟩ := RingModN.init_spec hfit prime257 (by decide) (by decide)
  have H : RingModN.IsPrimeField O 257 := ⟨prime257, by rw [hring], by rw [hring]; exact hfit, by rw [hring], by rw [hring]; decide,
    by rw [hring]; exact eO⟩
  haveI : Fact (Nat.Prime 257) := ⟨prime257⟩
  unfold RsFnt.mkBase at eB
  obtain ⟨_, _, eB⟩ := bind_ok eB
  obtain ⟨O', eO', eB⟩ := bind_ok eB
  have eO2 : RingModN.init ⟨16, 32, true, 257⟩ 0 = .ok O' := eO'
  rw [eO] at eO2
  cases eO2
  obtain ⟨_, _, eB⟩ := bind_ok eB
  obtain ⟨_, _, eB⟩ := bind_ok eB
  obtain ⟨n, en, eB⟩ := bind_ok eB
  obtain ⟨L, eL, hLe, _⟩ := H.codeLen (e := 8) rfl (m := (k + m) % 2 ^ 16 - k + k) (by omega) (by omega)
  have eL' : O.gf.codeLenHC ((k + m) % 2 ^ 16 - k + k) = .ok (2 ^ L) := eL
  rw [eL'] at en
  obtain ⟨_, _, eB⟩ := bind_ok eB
  obtain ⟨_, _, eB⟩ := bind_ok eB
  obtain ⟨_, _, eB⟩ := bind_ok eB
  obtain ⟨_, _, eB⟩ := bind_ok eB
  obtain ⟨_, _, eB⟩ := bind_ok eB
  obtain ⟨_, _, eB⟩ := bind_ok eB
  obtain ⟨_, _, eB⟩ := bind_ok eB
  obtain ⟨_, _, eB⟩ := bind_ok eB
  obtain ⟨_, _, eB⟩ := bind_ok eB
  cases eB
  show n ≤ 256
  rw [← Except.ok.inj en]
  exact Nat.pow_le_pow_right (by omega) hLe

/-- 10 data fragments and 65542 parities: a sum of 65552, which is 16 modulo `2^16` -/
example : 2 * 10 ≤ 256 ∧ 256 < 10 + 65542 ∧ 10 + 65542 < 2 ^ 32 ∧ 10 < (10 + 65542) % 2 ^ 16 ∧ (10 + 65542) % 2 ^ 16 ≤ 256 := by decide

end Props
end Quad
