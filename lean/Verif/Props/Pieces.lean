import Verif.Lemmas.Pieces
import Verif.Props.Distance

/-!
# C80: coding in pieces

`CodesPieces E w k n` (Spec/Pieces.lean) is C80 for the code `E` word by word.
-/

namespace Quad.Props
open Quad Quad.Spec Quad.Gf2nRec

/-- C80 for the Fermat number codes in packets. -/
theorem C80_fnt {c : FntCode} (hc : c.Ok) {data data' frags frags' : Array (List Nat)} {fprops fprops' : Array Properties} {T T' : Nat}
    (hd : c.Data data T) (hd' : c.Data data' T') (he : c.Encoded data frags fprops) (he' : c.Encoded data' frags' fprops') :
    c.Data (joinStreams c.k data data') (T + T') ∧
      c.Encoded (joinStreams c.k data data') (joinStreams c.nOut frags frags') (joinProps c.nOut T fprops fprops') := by
  obtain ⟨p, n, _, g, r⟩ := FntCode.exists_root hc
  have hD : c.Data (joinStreams c.k data data') (T + T') :=
    ⟨by simp [joinStreams], joinStreams_bytes hd.bytes hd'.bytes, joinStreams_length hd.len hd'.len⟩
  refine ⟨hD, ?_⟩
  obtain ⟨fr, fp, _, _, _, u, _⟩ := C36_streams_unique_partial hc hD
  have hE := (u fr fp).2 ⟨rfl, rfl⟩
  obtain ⟨h1, h2⟩ := (fnt_codeOf r hD hE).unique (CodeOf.join hd.len (fnt_codeOf r hd he) (fnt_codeOf r hd' he'))
  rw [← h1, ← h2]
  exact hE

/-- all data of whole words are coded by the packed code -/
theorem nf4_encodes {w k m : Nat} (hw : w = 2 ∨ w = 4 ∨ w = 8) (hk : 0 < k) (hm : 0 < m) (hlen : k + m ≤ 65536) (htwo : 2 * k ≤ 65536)
    {data : Array (List Nat)} {T : Nat} (hd : StreamData w k data T) : ∃ frags fprops, Nf4Encoded w k m data frags fprops := by
  obtain ⟨n, g, _, _, hall⟩ := C32_packets_partial hk hm hlen htwo
  obtain ⟨frags, fprops, s1, s2, _, _, h, _⟩ := hall hw hd
  have hB : Nf4Build 128 (w / 2) (RsNf4Obj.nf4Simd 128 none (fun _ => 0)) := ⟨.inr (.inr rfl), by omega, by omega, by simp [RsNf4Obj.nf4Simd]⟩
  obtain ⟨R, e, P⟩ := h (pkt := 1) (fun _ => 0) (by simp [Nf4Reg]) hB (by omega)
  obtain ⟨o, enc', H', e1, s3, ho⟩ := P.encode default (Array.replicate (k + m) []) (Array.replicate (k + m) .empty) (fun _ _ => 0) default
    (by simp) (by simp)
  refine ⟨frags, fprops, 128, none, _, 1, _, R, default, enc', fun _ _ => 0, default, H', by simp [Nf4Reg], hB, by omega, e, ?_⟩
  rw [e1, show o = frags.map some from gt_ext (by rw [s3, Array.size_map, s1]) (fun i hi => by
    rw [ho i (by omega), gt_map (by omega), gt_replicate (by omega), List.nil_append])]

/-- C80 for the packed Fermat code in packets. -/
theorem C80_nf4 {w k m : Nat} (hw : w = 2 ∨ w = 4 ∨ w = 8) (hk : 0 < k) (hm : 0 < m) (hlen : k + m ≤ 65536) (htwo : 2 * k ≤ 65536)
    {data data' frags frags' : Array (List Nat)} {fprops fprops' : Array Properties} {T T' : Nat} (hd : StreamData w k data T)
    (hd' : StreamData w k data' T') (he : Nf4Encoded w k m data frags fprops) (he' : Nf4Encoded w k m data' frags' fprops') (F P) :
    Nf4Encoded w k m (joinStreams k data data') F P ↔ F = joinStreams (k + m) frags frags' ∧ P = joinProps (k + m) T fprops fprops' := by
  obtain ⟨st, mk, _, _, h⟩ := nf4_code hw hk hm hlen htwo
  have hD : StreamData w k (joinStreams k data data') (T + T') :=
    ⟨by simp [joinStreams], joinStreams_length hd.len hd'.len, joinStreams_bytes hd.bytes hd'.bytes⟩
  have hu : ∀ {F P}, Nf4Encoded w k m (joinStreams k data data') F P →
      F = joinStreams (k + m) frags frags' ∧ P = joinProps (k + m) T fprops fprops' := fun hE =>
    (h hD hE).unique (CodeOf.join hd.len (h hd he) (h hd' he'))
  refine ⟨hu, ?_⟩
  rintro ⟨rfl, rfl⟩
  obtain ⟨F, P, hE⟩ := nf4_encodes hw hk hm hlen htwo hD
  obtain ⟨rfl, rfl⟩ := hu hE
  exact hE

/-- C80 for the codes with matrices over GF(2^n). -/
theorem C80_matrix {b w k m : Nat} (h : Gf2nParams b w k m) (type : RsGf2n.MatType) (mem : Nat → Nat) (junk : Nat → Nat → Nat)
    (junk3 : Nat → Nat → Nat → Nat) : ∃ E, RsGf2n.mk' b w k m type mem junk junk3 = .ok E ∧ CodesPieces E w k m := by
  obtain ⟨hws, hw16⟩ := Gf2nRec.gf2n_wordSize h
  haveI := fact_of (size_of h.field.size)
  obtain ⟨O, B, mat, f, e, i1, v1, hu, _⟩ := RsGf2n.mk'_spec h.field hw16 h.hk h.len type mem junk junk3
  have H := RsGf2n.hspec B.full hws (fun a => by show a < 2 ^ (8 * w) ↔ _; rw [Nat.pow_mul]) h.hk i1 v1
  exact ⟨_, e, H.codesPieces rfl rfl rfl⟩

/-- C80 for the non-systematic Fermat number code word by word. -/
theorem C80_fnt_words {c : FntCode} (hc : c.Ok) (hs : c.sys = false) (pkt : Nat) (mem : Nat → Nat) :
    ∃ B, RsFnt.mkBase c.b c.db c.sys c.w c.k c.m pkt mem = .ok B ∧ CodesPieces (RsFnt.fec B) c.w c.k (c.k + c.m) := by
  obtain ⟨p, n, _, g, r⟩ := FntCode.exists_root hc
  obtain ⟨B, e, hw, hk, hn, H⟩ := r.horiz hs pkt mem
  exact ⟨B, e, H.codesPieces hw hk (hn.trans (show c.nOut = c.k + c.m by unfold FntCode.nOut; rw [hs]; rfl))⟩

/-- C80 for the code on the multiplicative FFT over GF(2^n). -/
theorem C80_multiplicative {b w k m : Nat} (h : Gf2nFftParams b w k m) (mem : Nat → Nat) (junk : Nat → Nat → Nat)
    (junk3 : Nat → Nat → Nat → Nat) : ∃ B, RsGf2nFft.mkBase b w k m mem junk junk3 = .ok B ∧ CodesPieces (RsGf2nFft.fec B) w k (k + m) := by
  obtain ⟨K, _, B, S, n, l2, g2, e, hw, G⟩ := RsGf2nFft.mkBase_spec h mem junk junk3
  subst hw
  have H := FftCode.hspec G (RsGf2nFft.is_fec B) (RsGf2nFft.post_spec B _) (RsGf2nFft.prep_spec B _)
  exact ⟨B, e, H.codesPieces rfl G.n_data G.n_outputs⟩

/-- C80 for the code on FFTs over GF(p).  Missing: the parameters `C31_recovery_partial` leaves out. -/
theorem C80_gfp_partial {b db w k m : Nat} (h : GfpParams b db w k m) (mem : Nat → Nat) :
    ∃ c, RsGfpFft.mkBase b db w k m mem = .ok c ∧ CodesPieces (RsGfpFft.fec b c) w k (k + m) := by
  obtain ⟨p, _, B, S, n, l2, g2, e, hw, hp, G⟩ := RsGfpFft.mkBase_spec h mem
  subst hw
  have H := FftCode.hspec G (RsGfpFft.is_fec b (B, 256 ^ B.word_size)) (RsGfpFft.post_spec (by positivity) (G.code_len.trans G.n_outputs.symm))
    (RsGfpFft.prep_spec hp)
  exact ⟨(B, 256 ^ B.word_size), e, H.codesPieces rfl G.n_data G.n_outputs⟩

/-- C80 for the code on the additive FFT. -/
theorem C80_additive {b w k m : Nat} (h : Gf2nFftAddParams b w k m) (mem : Nat → Nat) (junk : Nat → Nat → Nat)
    (junk3 : Nat → Nat → Nat → Nat) : ∃ c, RsGf2nFftAdd.mkCode b w k m mem junk junk3 = .ok c ∧ CodesPieces (RsGf2nFftAdd.fec c) w k (k + m) := by
  obtain ⟨K, _, c, S, n, pt, e, G, _⟩ := RsGf2nFftAdd.mkCode_spec h mem junk junk3
  exact ⟨c, e, (RsGf2nFftAdd.hspec' G).codesPieces G.word G.n_data G.n_outputs⟩

/-- C80 for the packed Fermat code word by word. -/
theorem C80_nf4_words {b w k m pkt : Nat} {simd : Option (Nat × (Nat → Nat))} (h : Nf4Params b simd w k m) (mem : Nat → Nat) :
    ∃ c, RsNf4.mkCode b simd w k m pkt mem = .ok c ∧ CodesPieces (RsNf4.fec c) w k (k + m) := by
  obtain ⟨c, e, hw, S, n, l2, g, g2, okLen, G⟩ := RsNf4.mkCode_spec (pkt := pkt) h mem
  exact ⟨c, e, (RsNf4.hspec G).codesPieces hw G.n_data G.n_outputs⟩

/-! ### the hypotheses are met -/

/-- four words, then two -/
example : ∃ data' frags frags' fprops fprops', code1.Data data1 4 ∧ code1.Data data' 2 ∧ code1.Encoded data1 frags fprops ∧
    code1.Encoded data' frags' fprops' ∧ joinStreams 3 data1 data' = #[[1, 2, 3, 4, 7, 8], [5, 6, 7, 255, 0, 1], [9, 10, 11, 12, 9, 255]] := by
  have hd : code1.Data #[[7, 8], [0, 1], [9, 255]] 2 := ⟨rfl, by decide, by decide⟩
  obtain ⟨fr, fp, _, _, _, u, _⟩ := C36_streams_unique_partial code1_ok data1_ok
  obtain ⟨fr', fp', _, _, _, u', _⟩ := C36_streams_unique_partial code1_ok hd
  exact ⟨_, fr, fr', fp, fp', data1_ok, hd, (u _ _).2 ⟨rfl, rfl⟩, (u' _ _).2 ⟨rfl, rfl⟩, by decide⟩

/-- two words of two bytes in each stream, then one and some bytes -/
example : StreamData 2 3 #[[1, 2, 3, 4], [5, 6, 7, 8], [0, 0, 255, 255]] 2 ∧ Gf2nData 2 3 #[[1, 2], [5, 6, 7], [8, 0]] 1 ∧
    joinProps 1 2 #[⟨[(1, 1)]⟩] #[⟨[(0, 1)]⟩] = #[⟨[(1, 1), (2, 1)]⟩] :=
  ⟨⟨rfl, by decide, by decide⟩, ⟨rfl, by decide, by decide, 0, by decide, by decide⟩, by decide⟩

end Quad.Props
