import Verif.Lemmas.Repair
import Verif.Props.FftBuilt
import Verif.Props.GfpBuilt
import Verif.Props.FecFftAdd
import Verif.Props.FecNf4
import Verif.Props.FecGf2n

/-!
# C82: lost fragments can be repaired

`Repairs E w k m` and `RepairsSys E w k m sel` (Spec/Repair.lean) are C82 for the code `E` word by word.
-/

namespace Quad.Props
open Quad Quad.Spec Quad.Gf2nRec

/-- C82 for the Fermat number codes, on packets: what an object decodes from any `n_data` fragments, another object, of any build and packet
size, codes into all the fragments and properties there were. -/
theorem C82_fnt {c : FntCode} (hc : c.Ok) {data frags : Array (List Nat)} {fprops : Array Properties} {T : Nat} (hd : c.Data data T)
    (he : c.Encoded data frags fprops) {pkt : Nat} (hpkt : 0 < pkt) {R : RsFntObj} {C : CtxB} {H : Heap} (hr : c.Reachable pkt R C H)
    {datas pars : Array (Option (List Nat))} {props : Array Properties} (hs : c.Surviving data frags fprops datas pars props)
    (mem : Nat → Nat) (junk : Nat → Nat → Nat) (hlost : c.sys = true → avail datas < c.k)
    (henough : c.k ≤ (if c.sys then avail datas else 0) + avail pars) :
    ∃ (D : Array (List Nat)) (H' : Heap), (R.fecV c.b).decode_streams_vertical datas pars props (Array.replicate c.k (some [])) mem junk H =
        .ok (true, D.map some, H') ∧
      ∀ {pkt' : Nat} {R' : RsFntObj} {C' : CtxB} {H1 : Heap} (junk' : Nat → Nat → Nat), 0 < pkt' → c.Reachable pkt' R' C' H1 →
        ∃ C'' H2, (R'.fecV c.b).encode_streams_vertical C' D (Array.replicate c.nOut []) (Array.replicate c.nOut .empty) junk' H1 =
          .ok (frags.map some, fprops, C'', H2) := by
  obtain ⟨o, H', e, s, q, _⟩ := C23_streams hc hd he hpkt hr (outs := Array.replicate c.k (some [])) hs mem junk (by simp) hlost henough
  obtain ⟨D, rfl, hs, hD⟩ := exists_map_some (g := gt data) s (fun i hi => by rw [q i hi, gt_replicate hi]; simp)
  have : D = data := gt_ext (by rw [hs, hd.size]) (fun i hi => hD i (by omega))
  subst this
  refine ⟨D, H', e, fun {pkt' R' C' H1} junk' hp hr' => ?_⟩
  obtain ⟨fr, fp, s1, s2, _, u, h⟩ := C36_streams_unique_partial hc hd
  obtain ⟨rfl, rfl⟩ := (u _ _).1 he
  obtain ⟨o, C'', H2, e1, so, ho, _⟩ := h hp hr' (Array.replicate c.nOut []) (Array.replicate c.nOut .empty) junk' (by simp) (by simp)
  refine ⟨C'', H2, ?_⟩
  rw [e1, show o = frags.map some from gt_ext (by rw [so, Array.size_map, s1]) (fun i hi => by
    rw [ho i (by omega), gt_map (by omega), gt_replicate (by omega), List.nil_append])]

/-- C82 for the non-systematic Fermat number code word by word. -/
theorem C82_fnt_words {c : FntCode} (hc : c.Ok) (hs : c.sys = false) (pkt : Nat) (mem : Nat → Nat) :
    ∃ B, RsFnt.mkBase c.b c.db c.sys c.w c.k c.m pkt mem = .ok B ∧ Repairs (RsFnt.fec B) c.w c.k c.m := by
  obtain ⟨p, n, _, g, r⟩ := FntCode.exists_root hc
  obtain ⟨B, e, hw, hk, hn, H⟩ := r.horiz hs pkt mem
  obtain ⟨_, R, _, he, I⟩ := r.new none (by simp [FntCode.Builds]) pkt mem (fun _ _ => 0) #[]
  have hsys : B.sys = false := by
    rw [e] at he
    rw [Except.ok.inj he, I.sys, hs]
  have hn' := hn.trans (show c.nOut = c.k + c.m by unfold FntCode.nOut; rw [hs]; rfl)
  refine ⟨B, e, H.repairs hw hk hn' (fun {data T} mem' hd => ?_)⟩
  rw [← hw] at hd ⊢
  exact FftCode.nsRecovers H hsys hn' hk mem' hd

/-- C82 for the code on the multiplicative FFT over GF(2^n), whenever the constructor returns. -/
theorem C82_multiplicative {b w k m : Nat} (hw : w ∈ [1, 2, 4, 8, 16]) (hF : BinSupported b (8 * w)) (hk : 0 < k) (hm : 0 < m)
    (hlt : k + m < 2 ^ min 32 b) {mem : Nat → Nat} {junk : Nat → Nat → Nat} {junk3 : Nat → Nat → Nat → Nat} {B : FecBase}
    (e : RsGf2nFft.mkBase b w k m mem junk junk3 = .ok B) : Repairs (RsGf2nFft.fec B) w k m := by
  obtain ⟨K, _, B', S, n, l2, g2, e', hw', G⟩ := RsGf2nFft.mkBase_spec (gf2n_fft_accepted hw hF hk hm hlt e) mem junk junk3
  have hrec := fun {data T} mem' (hd : Gf2nData w k data T) => C30_multiplicative_whenever_built hw hF hk hm hlt e hd mem'
  rw [e] at e'
  cases e'
  subst hw'
  have H := FftCode.hspec G (RsGf2nFft.is_fec B) (RsGf2nFft.post_spec B _) (RsGf2nFft.prep_spec B _)
  intro data frags fprops T mem1 hd
  exact H.repairs (w := B.word_size) (m := m) rfl G.n_data G.n_outputs hrec hd

/-- C82 for the code on FFTs over GF(p), whenever the constructor returns. -/
theorem C82_gfp {b db w k m : Nat} (hT : WordType b db) (hk : 0 < k) (hm : 0 < m) (hlt : k + m < 2 ^ 32) {mem : Nat → Nat}
    {c : FecBase × Nat} (e : RsGfpFft.mkBase b db w k m mem = .ok c) : Repairs (RsGfpFft.fec b c) w k m := by
  obtain ⟨p, _, B, S, n, l2, g2, e', hw, hp, G⟩ := RsGfpFft.mkBase_spec (gfp_accepted hT hk hm hlt e) mem
  have hrec := fun {data T} mem' (hd : Gf2nData w k data T) => C31_whenever_built_partial hT hk hm hlt e hd mem'
  rw [e] at e'
  cases e'
  subst hw
  have H := FftCode.hspec G (RsGfpFft.is_fec b (B, 256 ^ B.word_size)) (RsGfpFft.post_spec (by positivity) (G.code_len.trans G.n_outputs.symm))
    (RsGfpFft.prep_spec hp)
  intro data frags fprops T mem1 hd
  exact H.repairs (w := B.word_size) (m := m) rfl G.n_data G.n_outputs hrec hd

/-- C82 for the code on the additive FFT.  Missing: half the elements of the field or more as data fragments, which cannot be decoded
(`C30_additive_decoding_asserts`). -/
theorem C82_additive_partial {b w k m : Nat} (h : Gf2nFftAddParams b w k m) (h2 : 2 * k < 2 ^ (8 * w)) (mem : Nat → Nat)
    (junk : Nat → Nat → Nat) (junk3 : Nat → Nat → Nat → Nat) :
    ∃ c, RsGf2nFftAdd.mkCode b w k m mem junk junk3 = .ok c ∧ Repairs (RsGf2nFftAdd.fec c) w k m := by
  obtain ⟨K, _, c, S, n, pt, e, G, _⟩ := RsGf2nFftAdd.mkCode_spec h mem junk junk3
  refine ⟨c, e, (RsGf2nFftAdd.hspec' G).repairs G.word G.n_data G.n_outputs (fun {data T} mem' hd => ?_)⟩
  obtain ⟨c', e', hr⟩ := C30_additive_recovery_partial h h2 mem junk junk3 hd mem'
  rw [e] at e'
  cases e'
  exact hr

/-- C82 for the packed Fermat code word by word. -/
theorem C82_nf4_words {b w k m pkt : Nat} {simd : Option (Nat × (Nat → Nat))} (h : Nf4Params b simd w k m) (mem : Nat → Nat) :
    ∃ c, RsNf4.mkCode b simd w k m pkt mem = .ok c ∧ Repairs (RsNf4.fec c) w k m := by
  obtain ⟨c, e, hw, S, n, l2, g, g2, okLen, G⟩ := RsNf4.mkCode_spec (pkt := pkt) h mem
  refine ⟨c, e, (RsNf4.hspec G).repairs hw G.n_data G.n_outputs (fun {data T} mem' hd => ?_)⟩
  obtain ⟨c', e', hr⟩ := C32_recovery_partial (pkt := pkt) h mem hd mem'
  rw [e] at e'
  cases e'
  exact hr

/-- C82 for the packed Fermat code on packets: what an object decodes from any `n_data` fragments, another object, of any build, word type and
packet size, codes into all the fragments and properties there were. -/
theorem C82_nf4 {w k m : Nat} (hw : w = 2 ∨ w = 4 ∨ w = 8) (hk : 0 < k) (hm : 0 < m) (hlen : k + m ≤ 65536) (htwo : 2 * k ≤ 65536)
    {data frags : Array (List Nat)} {fprops : Array Properties} {T : Nat} (hd : StreamData w k data T) (he : Nf4Encoded w k m data frags fprops)
    {b : Nat} {reg : Option Nat} {hi : Nat → Nat} {pkt : Nat} {mem : Nat → Nat} (hreg : Nf4Reg reg)
    (hB : Nf4Build b (w / 2) (RsNf4Obj.nf4Simd b reg hi)) (hpkt : 0 < pkt) {R : RsNf4Obj} (e : RsNf4Obj.mk' b reg hi w k m pkt mem = .ok R)
    (datas pars : Array (Option (List Nat))) (props : Array Properties) (mem1 : Nat → Nat) (junk : Nat → Nat → Nat) (H : Heap)
    (hp : pars.size = k + m) (hq : props.size = k + m)
    (hs : ∀ f s, f < k + m → gt pars f = some s → s = gt frags f ∧ gt props f = gt fprops f) (henough : k ≤ avail pars) :
    ∃ (D : Array (List Nat)) (H' : Heap), (R.fecV b).decode_streams_vertical datas pars props (Array.replicate k (some [])) mem1 junk H =
        .ok (true, D.map some, H') ∧
      ∀ {b' : Nat} {reg' : Option Nat} {hi' : Nat → Nat} {pkt' : Nat} {mem' : Nat → Nat} {R' : RsNf4Obj} (enc : CtxB) (junk' : Nat → Nat → Nat)
        (H1 : Heap), Nf4Reg reg' → Nf4Build b' (w / 2) (RsNf4Obj.nf4Simd b' reg' hi') → 0 < pkt' →
        RsNf4Obj.mk' b' reg' hi' w k m pkt' mem' = .ok R' →
        ∃ enc' H2, (R'.fecV b').encode_streams_vertical enc D (Array.replicate (k + m) []) (Array.replicate (k + m) .empty) junk' H1 =
          .ok (frags.map some, fprops, enc', H2) := by
  obtain ⟨n, g, _, _, hall⟩ := C32_packets_partial hk hm hlen htwo
  obtain ⟨fr, fp, s1, s2, _, _, h, _⟩ := hall hw hd
  have enc_eq : ∀ {b : Nat} {reg : Option Nat} {hi : Nat → Nat} {pkt : Nat} {mem : Nat → Nat} {R : RsNf4Obj} (enc : CtxB) (junk : Nat → Nat → Nat)
      (H : Heap), Nf4Reg reg → Nf4Build b (w / 2) (RsNf4Obj.nf4Simd b reg hi) → 0 < pkt → RsNf4Obj.mk' b reg hi w k m pkt mem = .ok R →
      ∃ enc' H2, (R.fecV b).encode_streams_vertical enc data (Array.replicate (k + m) []) (Array.replicate (k + m) .empty) junk H =
        .ok (fr.map some, fp, enc', H2) := by
    intro b reg hi pkt mem R enc junk H hreg hB hpkt e
    obtain ⟨R', e', P⟩ := h mem hreg hB hpkt
    rw [e] at e'
    cases e'
    obtain ⟨o, enc', H', e1, so, ho⟩ := P.encode enc (Array.replicate (k + m) []) (Array.replicate (k + m) .empty) junk H (by simp) (by simp)
    refine ⟨enc', H', ?_⟩
    rw [e1, show o = fr.map some from gt_ext (by rw [so, Array.size_map, s1]) (fun i hi => by
      rw [ho i (by omega), gt_map (by omega), gt_replicate (by omega), List.nil_append])]
  have heq : frags = fr ∧ fprops = fp := by
    obtain ⟨b0, reg0, hi0, pkt0, mem0, R0, en, en', j, H0, H0', a1, a2, a3, a4, a5⟩ := he
    obtain ⟨_, _, a6⟩ := enc_eq en j H0 a1 a2 a3 a4
    rw [a5] at a6
    injection a6 with a6
    have h1 := (Prod.mk.inj a6).1
    have h2 := (Prod.mk.inj (Prod.mk.inj a6).2).1
    refine ⟨?_, h2⟩
    have hz : frags.size = fr.size := by simpa using congrArg Array.size h1
    refine gt_ext hz (fun i hi => ?_)
    have h3 := congrArg (fun x => gt x i) h1
    simp only [gt_map hi, gt_map (show i < fr.size by omega)] at h3
    exact Option.some.inj h3
  obtain ⟨rfl, rfl⟩ := heq
  obtain ⟨R', e', P⟩ := h mem hreg hB hpkt
  rw [e] at e'
  cases e'
  obtain ⟨v, o, H', e1, q⟩ := P.decode datas pars (Array.replicate k (some [])) props mem1 junk H hp hq (by simp) hs
  rw [if_neg (by omega)] at q
  obtain ⟨rfl, so, ho⟩ := q
  obtain ⟨D, rfl, hz, hD⟩ := exists_map_some (g := gt data) so (fun i hi => by rw [ho i hi, gt_replicate hi]; simp)
  have : D = data := gt_ext (by rw [hz, hd.size]) (fun i hi => hD i (by omega))
  subst this
  exact ⟨D, H', e1, fun enc junk' H1 a1 a2 a3 a4 => enc_eq enc junk' H1 a1 a2 a3 a4⟩

/-- C82 for the codes with matrices over GF(2^n): the Vandermonde code from any `n_data` fragments.  Missing for the Cauchy code: losses it does
not recover from (`C28_three_losses_fail`). -/
theorem C82_matrix_partial {b w k m : Nat} (h : Gf2nParams b w k m) (type : RsGf2n.MatType) (mem : Nat → Nat) (junk : Nat → Nat → Nat)
    (junk3 : Nat → Nat → Nat → Nat) :
    ∃ E, RsGf2n.mk' b w k m type mem junk junk3 = .ok E ∧
      RepairsSys E w k m (fun datas pars => type = .vandermonde ∨ gt datas 0 ≠ none ∨ gt pars 0 = none ∨ k ≤ nAvail datas + 2) := by
  obtain ⟨hws, hw16⟩ := Gf2nRec.gf2n_wordSize h
  haveI := fact_of (size_of h.field.size)
  obtain ⟨O, B, mat, f, e, i1, v1, hu, _⟩ := RsGf2n.mk'_spec h.field hw16 h.hk h.len type mem junk junk3
  have H := RsGf2n.hspec B.full hws (fun a => by show a < 2 ^ (8 * w) ↔ _; rw [Nat.pow_mul]) h.hk i1 v1
  refine ⟨_, e, ?_⟩
  intro data frags fprops T mem1 hd e1 datas pars props mem' hs hlost hge hsel
  obtain ⟨E', e', fr, fp, e2, _, _, hr⟩ := gf2n_recovers h type mem junk junk3 hd
  rw [e] at e'
  cases e'
  have C1 := H.codeOf rfl rfl rfl hd e1
  have C2 := H.codeOf rfl rfl rfl hd e2
  obtain ⟨rfl, rfl⟩ := C1.unique C2
  obtain ⟨res, er, rs, rv⟩ := hr datas pars (Array.replicate k (some [])) props mem' hs (by simp) hge hsel
  obtain ⟨D, rfl, hs, hD⟩ := exists_map_some (g := fun i => (gt data i).take (T * w)) rs (fun i hi => by
    rw [rv i hi, if_neg (by omega), gt_replicate hi]; simp)
  exact ⟨D, er, hD, H.recodes rfl rfl rfl hd e1 hs hD⟩

/-! ### the hypotheses are met -/

/-- three words in each of two streams of one byte words, and a code of two data fragments and three parities, of which two are left -/
example : ∃ (c : FntCode) (data frags : Array (List Nat)) (fprops : Array Properties) (datas pars : Array (Option (List Nat))), c.Ok ∧
    c.Data data 3 ∧ c.Encoded data frags fprops ∧ c.Surviving data frags fprops datas pars fprops ∧ (c.sys = true → avail datas < c.k) ∧
    c.k ≤ (if c.sys then avail datas else 0) + avail pars := by
  have hc : (⟨32, 64, 1, 2, 3, true⟩ : FntCode).Ok := ⟨.inl ⟨rfl, rfl⟩, .inl rfl, by decide, by decide, by decide, by decide⟩
  have hd : (⟨32, 64, 1, 2, 3, true⟩ : FntCode).Data #[[1, 200, 3], [7, 0, 255]] 3 := ⟨rfl, by decide, by decide⟩
  obtain ⟨fr, fp, s1, s2, _, u, _⟩ := C36_streams_unique_partial hc hd
  refine ⟨_, _, fr, fp, #[none, none], #[some (gt fr 0), none, some (gt fr 2)], hc, hd, (u _ _).2 ⟨rfl, rfl⟩,
    ⟨fun _ => rfl, rfl, s2, fun _ i s hi h => ?_, fun f s hf h => ?_⟩, fun _ => by decide, ?_⟩
  · have hi : i < 2 := hi
    interval_cases i <;> cases h
  · have hf : f < 3 := hf
    interval_cases f
    · exact ⟨(Option.some.inj h).symm, rfl⟩
    · cases h
    · exact ⟨(Option.some.inj h).symm, rfl⟩
  · simp [avail]

/-- the other codes can be built, and code data of two streams, the second with a byte more than a word -/
example : (∃ E, RsGf2n.mk' 32 2 2 3 .cauchy (fun _ => 0) (fun _ _ => 0) (fun _ _ _ => 0) = .ok E) ∧
    Gf2nData 2 2 #[[1, 2], [3, 4, 5]] 1 := by
  have h : Gf2nParams 32 2 2 3 := ⟨by decide, ⟨by decide, by decide, by decide, by decide⟩, by decide, by decide⟩
  obtain ⟨E, e, _⟩ := C82_matrix_partial h .cauchy (fun _ => 0) (fun _ _ => 0) (fun _ _ _ => 0)
  exact ⟨⟨E, e⟩, rfl, by decide, by decide, 0, by decide, by decide⟩

end Quad.Props
