import Verif.Props.GfpBuilt
import Verif.Props.Linear

/-!
# The code on the multiplicative FFT over GF(2^n), whenever its constructor returns

The constructor of `RsGf2nFft` does not return for all the parameters a user may ask for (C48), but when it does, the code has its properties: the
bounds of `Gf2nFftParams` are all the parameters it returns for.
-/

namespace Quad.Props
open Quad Quad.Spec

/-- the constructor returns only with the parameters of `Gf2nFftParams` -/
theorem gf2n_fft_accepted {b w k m : Nat} (hw : w ∈ [1, 2, 4, 8, 16]) (hF : BinSupported b (8 * w)) (hk : 0 < k) (hm : 0 < m)
    (hlt : k + m < 2 ^ min 32 b) {mem : Nat → Nat} {junk : Nat → Nat → Nat} {junk3 : Nat → Nat → Nat → Nat} {B : FecBase}
    (e : RsGf2nFft.mkBase b w k m mem junk junk3 = .ok B) : Gf2nFftParams b w k m := by
  have h32 : k + m < 2 ^ 32 := lt_of_lt_of_le hlt (Nat.pow_le_pow_right (by decide) (Nat.min_le_left _ _))
  have H : k + m ≤ fftMax w ∧ 2 * k ≤ fftMax w := by
    simp only [List.mem_cons, List.not_mem_nil, or_false] at hw
    rcases hw with rfl | rfl | rfl | h
    · have := (C48_gf2n_fft (.inl rfl) hF hk hm hlt mem junk junk3).1.1 ⟨B, e⟩
      have h1 : fftMax 1 = 255 := rfl
      omega
    · have := (C48_gf2n_fft (.inr rfl) hF hk hm hlt mem junk junk3).1.1 ⟨B, e⟩
      have h1 : fftMax 2 = 65535 := rfl
      omega
    · exact (C48_gf2n_fft_4_partial hF hk hm h32 mem junk junk3).1.1 ⟨B, e⟩
    · have := (C48_gf2n_fft_long_partial h hF hk hm h32 mem junk junk3).1 ⟨B, e⟩
      rcases h with rfl | rfl <;> exact this
  exact ⟨hw, hF, hk, hm, H.1, H.2⟩

/-- C30, the multiplicative FFT, whenever the constructor returns: any `n_data` fragments decode to the data. -/
theorem C30_multiplicative_whenever_built {b w k m : Nat} (hw : w ∈ [1, 2, 4, 8, 16]) (hF : BinSupported b (8 * w)) (hk : 0 < k) (hm : 0 < m)
    (hlt : k + m < 2 ^ min 32 b) {mem : Nat → Nat} {junk : Nat → Nat → Nat} {junk3 : Nat → Nat → Nat → Nat} {B : FecBase}
    (e : RsGf2nFft.mkBase b w k m mem junk junk3 = .ok B)
    {data : Array (List Nat)} {T : Nat} (hd : Gf2nData w k data T) (mem' : Nat → Nat) : NsRecovers (RsGf2nFft.fec B) w k m mem' data T := by
  obtain ⟨B', e', h⟩ := C30_multiplicative_recovery (gf2n_fft_accepted hw hF hk hm hlt e) mem junk junk3 hd mem'
  rw [e] at e'
  cases e'
  exact h

/-- C77, the multiplicative FFT, whenever the constructor returns. -/
theorem C77_multiplicative_whenever_built {b w k m : Nat} (hw : w ∈ [1, 2, 4, 8, 16]) (hF : BinSupported b (8 * w)) (hk : 0 < k) (hm : 0 < m)
    (hlt : k + m < 2 ^ min 32 b) {mem : Nat → Nat} {junk : Nat → Nat → Nat} {junk3 : Nat → Nat → Nat → Nat} {B : FecBase}
    (e : RsGf2nFft.mkBase b w k m mem junk junk3 = .ok B) : AnyTwo (RsGf2nFft.fec B) w k (k + m) (FarApart w k (k + m) m false) := by
  obtain ⟨B', e', h⟩ := C77_multiplicative (gf2n_fft_accepted hw hF hk hm hlt e) mem junk junk3
  rw [e] at e'
  cases e'
  exact h

/-- C78, the multiplicative FFT, whenever the constructor returns. -/
theorem C78_multiplicative_whenever_built {b w k m : Nat} (hw : w ∈ [1, 2, 4, 8, 16]) (hF : BinSupported b (8 * w)) (hk : 0 < k) (hm : 0 < m)
    (hlt : k + m < 2 ^ min 32 b) {mem : Nat → Nat} {junk : Nat → Nat → Nat} {junk3 : Nat → Nat → Nat → Nat} {B : FecBase}
    (e : RsGf2nFft.mkBase b w k m mem junk junk3 = .ok B) : AnyTwo (RsGf2nFft.fec B) w k (k + m) (AgreeWithData w k (k + m)) := by
  obtain ⟨B', e', h⟩ := C78_multiplicative (gf2n_fft_accepted hw hF hk hm hlt e) mem junk junk3
  rw [e] at e'
  cases e'
  exact h

/-- C79, the multiplicative FFT, whenever the constructor returns. -/
theorem C79_multiplicative_whenever_built {b w k m : Nat} (hw : w ∈ [1, 2, 4, 8, 16]) (hF : BinSupported b (8 * w)) (hk : 0 < k) (hm : 0 < m)
    (hlt : k + m < 2 ^ min 32 b) {mem : Nat → Nat} {junk : Nat → Nat → Nat} {junk3 : Nat → Nat → Nat → Nat} {B : FecBase}
    (e : RsGf2nFft.mkBase b w k m mem junk junk3 = .ok B) : CodesSums (RsGf2nFft.fec B) w k (k + m) := by
  obtain ⟨B', e', h⟩ := C79_multiplicative (gf2n_fft_accepted hw hF hk hm hlt e) mem junk junk3
  rw [e] at e'
  cases e'
  exact h

/-- C80, the multiplicative FFT, whenever the constructor returns. -/
theorem C80_multiplicative_whenever_built {b w k m : Nat} (hw : w ∈ [1, 2, 4, 8, 16]) (hF : BinSupported b (8 * w)) (hk : 0 < k) (hm : 0 < m)
    (hlt : k + m < 2 ^ min 32 b) {mem : Nat → Nat} {junk : Nat → Nat → Nat} {junk3 : Nat → Nat → Nat → Nat} {B : FecBase}
    (e : RsGf2nFft.mkBase b w k m mem junk junk3 = .ok B) : CodesPieces (RsGf2nFft.fec B) w k (k + m) := by
  obtain ⟨B', e', h⟩ := C80_multiplicative (gf2n_fft_accepted hw hF hk hm hlt e) mem junk junk3
  rw [e] at e'
  cases e'
  exact h

/-- the constructor returns with words of 8 bytes, 1000 data fragments and forty million parities -/
example : BinSupported 64 (8 * 8) ∧ (∃ B, RsGf2nFft.mkBase 64 8 1000 40000000 (fun _ => 0) (fun _ _ => 0) (fun _ _ _ => 0) = .ok B) ∧
    1000 + 40000000 < 2 ^ min 32 64 :=
  have h : BinSupported 64 (8 * 8) := ⟨by decide, by decide, by decide, by decide⟩
  ⟨h, (C48_gf2n_fft_long_partial (.inl rfl) h (by decide) (by decide) (by decide) _ _ _).2 ⟨by decide, by decide⟩, by decide⟩

end Quad.Props
