import Verif.Lemmas.SimdPost

/-!
The vectorised builds meet what the codes need of a build.
-/

namespace Quad
open Simd

theorem GF.modP_of_sim {p : Nat} [Fact p.Prime] {F : GF} (S : F.Sim (ZMod p)) (hV : ∀ c, S.V c ↔ c < p)
    (hφ : ∀ c, S.φ c = (c : ZMod p)) (h1 : F.card = p) (h2 : F.cardM1 = p - 1) : F.ModP p := by
  have key : ∀ {a c : Nat}, S.V a → S.φ a = (c : ZMod p) → a = c % p := by
    intro a c ha h
    rw [hφ] at h
    have := (ZMod.natCast_eq_natCast_iff' _ _ _).mp h
    rwa [Nat.mod_eq_of_lt ((hV a).mp ha)] at this
  refine ⟨h1, h2, fun x y hx hy => ?_, fun x y hx hy => ?_, fun x y hx hy => ?_⟩
  · have := S.add ((hV x).mpr hx) ((hV y).mpr hy)
    exact key this.1 (by rw [this.2, hφ, hφ]; push_cast; rfl)
  · have := S.sub ((hV x).mpr hx) ((hV y).mpr hy)
    exact key this.1 (by rw [this.2, hφ, hφ, Nat.cast_add, Nat.cast_sub hy.le, ZMod.natCast_self]; ring)
  · have := S.mul ((hV x).mpr hx) ((hV y).mpr hy)
    exact key this.1 (by rw [this.2, hφ, hφ]; push_cast; rfl)

theorem Build.simd_good {R w p : Nat} [Fact p.Prime] (hR : RegSize R) (hw : Lane w) (hp : p = P w) :
    (Build.simd R w).Good p (4 * w) := by
  subst hp
  have hP : P w = 2 ^ (4 * w) + 1 := by rcases hw with rfl | rfl <;> decide
  refine ⟨?_, ?_, ?_⟩
  · intro L dl pkt g R' h hL hdl F S hV hφ
    obtain ⟨S', h1, h2, h3, h4, h5, h6, h7, h8, h9, h10⟩ := h
    have := Radix2.fthV_spec h4 hR hw (GF.modP_of_sim S' h1 h2 h9 h10) (fun c => (h1 c).mp) (pkt := pkt) hL (by rw [h5]; exact hdl)
      (h3.coef ((h1 _).mpr h6)) (by rw [h2, h7])
    rw [h2, h8, h5] at this
    exact this.congr (fun c => by rw [h1, hV]) (fun c => by rw [h2, hφ])
  · intro F S hV hφ h1 h2
    have hF := GF.modP_of_sim S hV hφ h1 h2
    refine ⟨?_, ?_⟩
    · intro u src dest H pkt a1 a2 a3 a4 a5 a6 a7 a8 a9 a10
      have e := Simd.mul_vec_eq hR hw hF (fun c => (hV c).mp) a1 a2 a3 a4 a5 a6 a7 a8 a9 a10
      show ∃ H', Simd.mul_vec_to_vecp R w F u src dest H = _ ∧ _
      rw [e]
      exact mul_vec_to_vecp_spec a1 a2 a3 a4 a5 a6 a7 a8 a9 a10
    · intro B H pkt a1 a2 a3 a4 a5
      have e := Simd.negBufs_eq hR hw hF (fun c => (hV c).mp) a1 a2 a3 a4 a5
      show ∃ H', Simd.negBufs R w F B H = _ ∧ _
      rw [e]
      exact negBufs_spec a1 a2 a3 a4 a5
  · intro B off hc output props H a1 a2 a3 a4 a5 a6
    have e := Simd.post_eq hw hR (B := B) (by rw [hc, hP]) (off := off) a1 a2 a3 a4 a5 (fun f hf c h => by
      have := a6 f hf c h; omega)
    show ∃ props', Simd.encode_post_process R w B output props off H = _ ∧ _
    rw [e]
    exact RsFnt.post_process_buf_spec hc a1 a2 a3 a4 a5 a6

theorem Build.of_good {simd : Option Nat} {b w p : Nat} [Fact p.Prime] (hp : p = 2 ^ (8 * w) + 1) (hw : w = 1 ∨ w = 2)
    (hs : ∀ R, simd = some R → (R = 16 ∨ R = 32) ∧ (b = 64 ∨ b = 16 * w)) : (Build.of simd b).Good p (8 * w) := by
  unfold Build.of
  cases simd with
  | none => exact Build.scalar_good
  | some R =>
    obtain ⟨hR, hb⟩ := hs R rfl
    dsimp only
    split
    · rename_i h
      have hb' : b = 16 * w := by omega
      have e : b / 8 = 2 * w := by omega
      rw [e, show 8 * w = 4 * (2 * w) by omega]
      refine Build.simd_good hR ?_ ?_
      · rcases hw with rfl | rfl
        exacts [.inl rfl, .inr rfl]
      · rw [hp]; rcases hw with rfl | rfl <;> decide
    · exact Build.scalar_good

end Quad
