import Verif.Spec.Interop
import Verif.Lemmas.Interop
import Verif.Lemmas.InteropFnt
import Verif.Props.FecGf2n
import Verif.Props.FecFft
import Verif.Props.FecFftAdd
import Verif.Props.FecNf4
import Verif.Props.FecNf4Vert
import Verif.Props.FecVert

/-!
# What one process or build codes, another decodes (C55)

In each theorem the fragments and properties come first: they depend on the parameters of the code and on the data only.  Every object with these
parameters writes them and decodes them, whatever the word type of the build, its vector registers and packets, and whatever
uninitialised memory held when it was built.
-/

namespace Quad.Props
open Quad Quad.Spec

private theorem gf2n_codes {b w k m : Nat} (h : Gf2nParams b w k m) (type : RsGf2n.MatType)
    {sel : Array (Option (List Nat)) → Array (Option (List Nat)) → Prop} {data : Array (List Nat)} {T : Nat} (hd : Gf2nData w k data T)
    (rec : ∀ {b}, Gf2nParams b w k m → ∀ (mem : Nat → Nat) (junk : Nat → Nat → Nat) (junk3 : Nat → Nat → Nat → Nat),
      ∃ E, RsGf2n.mk' b w k m type mem junk junk3 = .ok E ∧ Gf2nRecovers E w k m mem data T sel) :
    ∃ frags fprops, frags.size = m ∧ (∀ f, f < m → (gt frags f).length = T * w) ∧
      ∀ {b'}, Gf2nParams b' w k m → ∀ (mem : Nat → Nat) (junk : Nat → Nat → Nat) (junk3 : Nat → Nat → Nat → Nat),
        ∃ E, RsGf2n.mk' b' w k m type mem junk junk3 = .ok E ∧ Gf2nCodes E w k m data T sel frags fprops := by
  obtain ⟨E0, e0, fr, pr, a1, a2, a3, _⟩ := rec h (fun _ => 0) (fun _ _ => 0) (fun _ _ _ => 0)
  refine ⟨fr, pr, a2, a3, fun {b'} h' mem junk junk3 => ?_⟩
  obtain ⟨E, e, fr', pr', b1, b2, b3, b4⟩ := rec h' mem junk junk3
  have henc := fun me => (Interop.gf2n_same h' h type e e0 hd me (fun _ => 0)).trans a1
  have := (henc mem).symm.trans b1
  cases this
  exact ⟨E, e, henc, b4⟩

/-- C55, Vandermonde matrix code: the fragments depend on the parameters and the data only, and every object decodes them. -/
theorem C55_vandermonde {b w k m : Nat} (h : Gf2nParams b w k m) {data : Array (List Nat)} {T : Nat} (hd : Gf2nData w k data T) :
    ∃ frags fprops, frags.size = m ∧ (∀ f, f < m → (gt frags f).length = T * w) ∧
      ∀ {b'}, Gf2nParams b' w k m → ∀ (mem : Nat → Nat) (junk : Nat → Nat → Nat) (junk3 : Nat → Nat → Nat → Nat),
        ∃ E, RsGf2n.mk' b' w k m .vandermonde mem junk junk3 = .ok E ∧
          Gf2nCodes E w k m data T (fun _ _ => True) frags fprops :=
  gf2n_codes h .vandermonde hd (fun h mem junk junk3 => C27_recovery h mem junk junk3 hd)

/-- C55, Cauchy matrix code.  Missing: decoding after the losses that this code does not recover from (`C28_three_losses_fail`). -/
theorem C55_cauchy_partial {b w k m : Nat} (h : Gf2nParams b w k m) {data : Array (List Nat)} {T : Nat} (hd : Gf2nData w k data T) :
    ∃ frags fprops, frags.size = m ∧ (∀ f, f < m → (gt frags f).length = T * w) ∧
      ∀ {b'}, Gf2nParams b' w k m → ∀ (mem : Nat → Nat) (junk : Nat → Nat → Nat) (junk3 : Nat → Nat → Nat → Nat),
        ∃ E, RsGf2n.mk' b' w k m .cauchy mem junk junk3 = .ok E ∧
          Gf2nCodes E w k m data T (fun datas pars => gt datas 0 ≠ none ∨ gt pars 0 = none ∨ k ≤ nAvail datas + 2) frags fprops :=
  gf2n_codes h .cauchy hd (fun h mem junk junk3 => C28_recovery_partial h mem junk junk3 hd)

/-- C55, code over GF(2^n) on the multiplicative FFT -/
theorem C55_multiplicative {b w k m : Nat} (h : Gf2nFftParams b w k m) {data : Array (List Nat)} {T : Nat} (hd : Gf2nData w k data T) :
    ∃ frags fprops, frags.size = k + m ∧ (∀ f, f < k + m → (gt frags f).length = T * w) ∧
      ∀ {b'}, Gf2nFftParams b' w k m → ∀ (mem : Nat → Nat) (junk : Nat → Nat → Nat) (junk3 : Nat → Nat → Nat → Nat),
        ∃ B, RsGf2nFft.mkBase b' w k m mem junk junk3 = .ok B ∧ NsCodes (RsGf2nFft.fec B) w k m data T frags fprops := by
  obtain ⟨B0, e0, fr, pr, a1, a2, a3, _⟩ := C30_multiplicative_recovery h (fun _ => 0) (fun _ _ => 0) (fun _ _ _ => 0) hd (fun _ => 0)
  refine ⟨fr, pr, a2, a3, fun {b'} h' mem junk junk3 => ?_⟩
  obtain ⟨B, e, fr', pr', b1, b2, b3, b4⟩ := C30_multiplicative_recovery h' mem junk junk3 hd mem
  have henc := fun me => (Interop.fft_same h' h e e0 hd me (fun _ => 0)).trans a1
  have := (henc mem).symm.trans b1
  cases this
  exact ⟨B, e, henc, b4⟩

/-- C55, code over GF(2^n) on the additive FFT.  Missing: half the elements of the field or more as data fragments
(`C30_additive_decoding_asserts`). -/
theorem C55_additive_partial {b w k m : Nat} (h : Gf2nFftAddParams b w k m) (h2 : 2 * k < 2 ^ (8 * w)) {data : Array (List Nat)} {T : Nat}
    (hd : Gf2nData w k data T) :
    ∃ frags fprops, frags.size = k + m ∧ (∀ f, f < k + m → (gt frags f).length = T * w) ∧
      ∀ {b'}, Gf2nFftAddParams b' w k m → ∀ (mem : Nat → Nat) (junk : Nat → Nat → Nat) (junk3 : Nat → Nat → Nat → Nat),
        ∃ c, RsGf2nFftAdd.mkCode b' w k m mem junk junk3 = .ok c ∧ NsCodes (RsGf2nFftAdd.fec c) w k m data T frags fprops := by
  obtain ⟨c0, e0, fr, pr, a1, a2, a3, _⟩ := C30_additive_recovery_partial h h2 (fun _ => 0) (fun _ _ => 0) (fun _ _ _ => 0) hd (fun _ => 0)
  refine ⟨fr, pr, a2, a3, fun {b'} h' mem junk junk3 => ?_⟩
  obtain ⟨c, e, fr', pr', b1, b2, b3, b4⟩ := C30_additive_recovery_partial h' h2 mem junk junk3 hd mem
  have henc := fun me => (Interop.add_same h' h h2 e e0 hd me (fun _ => 0)).trans a1
  have := (henc mem).symm.trans b1
  cases this
  exact ⟨c, e, henc, b4⟩

/-- C55, code over prime fields, with the parameters of `C31_recovery_partial` -/
theorem C55_gfp_partial {b db w k m : Nat} (h : GfpParams b db w k m) {data : Array (List Nat)} {T : Nat} (hd : Gf2nData w k data T) :
    ∃ frags fprops, frags.size = k + m ∧ (∀ f, f < k + m → (gt frags f).length = T * w) ∧
      ∀ {b' db'}, GfpParams b' db' w k m → ∀ mem : Nat → Nat,
        ∃ c, RsGfpFft.mkBase b' db' w k m mem = .ok c ∧ NsCodes (RsGfpFft.fec b' c) w k m data T frags fprops := by
  obtain ⟨c0, e0, fr, pr, a1, a2, a3, _⟩ := C31_recovery_partial h (fun _ => 0) hd (fun _ => 0)
  refine ⟨fr, pr, a2, a3, fun {b' db'} h' mem => ?_⟩
  obtain ⟨c, e, fr', pr', b1, b2, b3, b4⟩ := C31_recovery_partial h' mem hd mem
  have henc := fun me => (Interop.gfp_same h' h e e0 hd me (fun _ => 0)).trans a1
  have := (henc mem).symm.trans b1
  cases this
  exact ⟨c, e, henc, b4⟩

/-- C55, packed Fermat code word by word, in any build -/
theorem C55_nf4_words {b w k m : Nat} {simd : Option (Nat × (Nat → Nat))} (h : Nf4Params b simd w k m) {data : Array (List Nat)} {T : Nat}
    (hd : Gf2nData w k data T) :
    ∃ frags fprops, frags.size = k + m ∧ (∀ f, f < k + m → (gt frags f).length = T * w) ∧
      ∀ {b' simd'}, Nf4Params b' simd' w k m → ∀ (pkt : Nat) (mem : Nat → Nat),
        ∃ c, RsNf4.mkCode b' simd' w k m pkt mem = .ok c ∧ NsCodes (RsNf4.fec c) w k m data T frags fprops := by
  obtain ⟨c0, e0, fr, pr, a1, a2, a3, _⟩ := C32_recovery_partial (pkt := 0) h (fun _ => 0) hd (fun _ => 0)
  refine ⟨fr, pr, a2, a3, fun {b' simd'} h' pkt mem => ?_⟩
  obtain ⟨c, e, fr', pr', b1, b2, b3, b4⟩ := C32_recovery_partial (pkt := pkt) h' mem hd mem
  have henc := fun me => (Interop.nf4_same h' h e e0 hd me (fun _ => 0)).trans a1
  have := (henc mem).symm.trans b1
  cases this
  exact ⟨c, e, henc, b4⟩

/-- C55, packed Fermat code on streams of whole words: objects that work in packets and objects that work word by word, in any build, write the
same fragments and decode each other's. -/
theorem C55_nf4 {w k m : Nat} (hw : w = 2 ∨ w = 4 ∨ w = 8) (hk : 0 < k) (hm : 0 < m) (hlen : k + m ≤ 65536) (htwo : 2 * k ≤ 65536)
    {data : Array (List Nat)} {T : Nat} (hd : StreamData w k data T) :
    ∃ frags fprops, frags.size = k + m ∧ (∀ f, f < k + m → (gt frags f).length = T * w) ∧
      (∀ {b : Nat} {reg : Option Nat} {hi : Nat → Nat} {pkt : Nat} (mem : Nat → Nat), Nf4Reg reg →
        Nf4Build b (w / 2) (RsNf4Obj.nf4Simd b reg hi) → 0 < pkt →
        ∃ R, RsNf4Obj.mk' b reg hi w k m pkt mem = .ok R ∧ PacketCode (R.fecV b) w k m T data frags fprops) ∧
      (∀ {b : Nat} {simd : Option (Nat × (Nat → Nat))} {pkt : Nat} (mem : Nat → Nat), Nf4Build b (w / 2) simd →
        ∃ c, RsNf4.mkCode b simd w k m pkt mem = .ok c ∧ NsCodes (RsNf4.fec c) w k m data T frags fprops) := by
  obtain ⟨n, g, _, _, hall⟩ := C32_packets_partial hk hm hlen htwo
  obtain ⟨fr, pr, a1, _, a3, _, a5, a6⟩ := hall hw hd
  refine ⟨fr, pr, a1, a3, a5, fun {b simd pkt} mem hB => ?_⟩
  have hd' : Gf2nData w k data T := ⟨hd.size, hd.bytes, fun i hi => (hd.len i hi).ge, 0, hk, by
    rw [hd.len 0 hk, Nat.succ_mul]; rcases hw with rfl | rfl | rfl <;> omega⟩
  obtain ⟨c, e, fr', pr', b1, b2, b3, b4⟩ := C32_recovery_partial (pkt := pkt) ⟨hw, hB, hk, hm, hlen, htwo⟩ mem hd' mem
  have henc : ∀ me : Nat → Nat, (RsNf4.fec c).encode_streams_horizontal data (Array.replicate (k + m) []) (Array.replicate (k + m) .empty) me
      = .ok (fr, pr) := by
    intro me
    obtain ⟨c', e', h'⟩ := a6 (pkt := pkt) mem me hB
    have := e'.symm.trans e
    cases this
    exact h'
  have := (henc mem).symm.trans b1
  cases this
  exact ⟨c, e, henc, b4⟩

/-- C55, Fermat-number codes in packets: the fragments depend on the data, the numbers of fragments, the word size and the mode only.  Every object of
every word type, packet size and build, whatever it did before, writes them and decodes them. -/
theorem C55_fnt {c : FntCode} (hc : c.Ok) {data : Array (List Nat)} {T : Nat} (hd : c.Data data T) :
    ∃ frags fprops, frags.size = c.nOut ∧ (∀ f, f < c.nOut → (gt frags f).length = T * c.w) ∧
      ∀ b db, FntCode.Ok { c with b := b, db := db } → ∀ {pkt R C H}, 0 < pkt →
        FntCode.Reachable { c with b := b, db := db } pkt R C H →
        FntCode.Codes { c with b := b, db := db } R C H data frags fprops := by
  obtain ⟨fr, pr, a1, a2, a3, a4, _⟩ := C36_streams_unique_partial hc hd
  refine ⟨fr, pr, a1, a3, fun b db hc' {pkt R C H} hpkt hr => ?_⟩
  have hd' : FntCode.Data { c with b := b, db := db } data T := ⟨hd.size, hd.bytes, hd.len⟩
  obtain ⟨fr', pr', b1, b2, b3, b4, b5⟩ := C36_streams_unique_partial hc' hd'
  have he' := (b4 fr' pr').mpr ⟨rfl, rfl⟩
  obtain ⟨rfl, rfl⟩ := FntCode.Encoded.same hc hc' rfl rfl rfl rfl hd ((a4 fr pr).mpr ⟨rfl, rfl⟩) he'
  refine ⟨fun junk => ?_, fun datas pars outs props mem junk hs ho hl hen => ?_⟩
  · obtain ⟨o, C', H', e, s1, s2, _⟩ := b5 hpkt hr (Array.replicate c.nOut []) (Array.replicate c.nOut .empty) junk (by simp [FntCode.nOut])
      (by simp [FntCode.nOut])
    refine ⟨C', H', ?_⟩
    have ho : o = fr'.map some := by
      refine gt_ext (by rw [s1, Array.size_map, b1]) fun i hi => ?_
      rw [s1] at hi
      rw [s2 i hi, gt_map (by omega), gt_replicate (show i < c.nOut from hi), List.nil_append]
    rw [← ho]
    exact e
  · obtain ⟨o, H', e, s1, s2, _⟩ := C23_streams hc' hd' he' hpkt hr hs mem junk ho hl hen
    exact ⟨o, H', e, s1, s2⟩

/-! ### the hypotheses are met -/

example : Gf2nParams 32 1 3 2 ∧ Gf2nParams 64 1 3 2 ∧ Gf2nData 1 3 #[[1, 2], [3, 4], [255, 0]] 2 :=
  ⟨⟨by decide, ⟨by decide, by decide, by decide, by decide⟩, by decide, by decide⟩,
   ⟨by decide, ⟨by decide, by decide, by decide, by decide⟩, by decide, by decide⟩,
   ⟨rfl, by decide, by decide, 0, by decide, by decide⟩⟩

example : FntCode.Ok ⟨32, 64, 1, 3, 2, true⟩ ∧ FntCode.Ok ⟨64, 128, 1, 3, 2, true⟩ ∧ FntCode.Ok ⟨16, 32, 1, 3, 2, true⟩ :=
  ⟨⟨by decide, by decide, by decide, by decide, by decide, by decide⟩, ⟨by decide, by decide, by decide, by decide, by decide, by decide⟩,
   ⟨by decide, by decide, by decide, by decide, by decide, by decide⟩⟩

end Quad.Props
