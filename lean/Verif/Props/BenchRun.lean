import Verif.Lemmas.BenchEnds
import Verif.Props.Driver
import Verif.Props.FecNf4Vert
import Verif.Props.Fec

/-!
# C71: runs of the benchmark

`Passes F sys m size s` (Spec/Bench.lean) is what C71 asks of the benchmark with a code object in the state `s`, chunks of `size` bytes and `m`
parities.  A coder is the code object with the contents of uninitialised memory in each call (Model/Driver.lean).
-/

namespace Quad.Props
open Quad Quad.Spec Quad.Driver Quad.Bench Quad.Gf2nRec

private theorem data_fnt {c : FntCode} {T : Nat} {d : List (Array Nat)} (h1 : d.length = c.k) (h2 : ∀ b ∈ d, Chunk (T * c.w) b) :
    c.Data (dataOf d) T := by
  refine ⟨by simpa using h1, fun i hi x hx => ?_, fun i hi => ?_⟩
  · rw [dataOf_at (by omega)] at hx
    have hb := h2 _ (List.getElem_mem (h := by omega) (n := i))
    obtain ⟨j, hj, rfl⟩ := List.mem_iff_getElem.1 hx
    have := hb.bytes j (by rw [← hb.size]; simpa using hj)
    rw [gt_eq (by simpa using hj)] at this
    simpa using this
  · rw [dataOf_at (by omega), Array.length_toList, (h2 _ (List.getElem_mem _)).size]

private theorem data_words {w k T : Nat} (hk : 0 < k) (hw : 0 < w) {d : List (Array Nat)} (h1 : d.length = k) (h2 : ∀ b ∈ d, Chunk (T * w) b) :
    (dataOf d).size = k ∧ (∀ i, i < k → (gt (dataOf d) i).length = T * w) ∧ (∀ i, i < k → ∀ x ∈ gt (dataOf d) i, x < 256) ∧
      Gf2nData w k (dataOf d) T := by
  have h := data_fnt (c := ⟨0, 0, w, k, 0, false⟩) h1 h2
  refine ⟨h.size, h.len, h.bytes, h.size, h.bytes, fun i hi => (h.len i hi).ge, 0, hk, ?_⟩
  rw [h.len 0 hk, Nat.add_mul]
  simp only
  omega

/-- C71 for the Fermat number codes in packets, with an object in any state its use can lead to. -/
theorem C71_fnt {c : FntCode} (hc : c.Ok) {pkt : Nat} (hpkt : 0 < pkt) {R : RsFntObj} {C : CtxB} {H : Heap} (hr : c.Reachable pkt R C H)
    (mem : Nat → Nat → Nat) (junk junk' : Nat → Nat → Nat → Nat) (calls : Nat) {T : Nat} (h0 : 0 < T) (hT : T ≤ 2 ^ 64) :
    (R.fecV c.b).base.n_data = c.k ∧ (R.fecV c.b).base.n_outputs = c.nOut ∧
      Passes (Coder.vertical (R.fecV c.b) mem junk junk') c.sys c.m (T * c.w) (C, H, calls) := by
  obtain ⟨p, n, _, g, r⟩ := FntCode.exists_root hc
  have hk : (R.fecV c.b).base.n_data = c.k := (hr.inv hpkt r).k
  have ho : (R.fecV c.b).base.n_outputs = c.nOut := (hr.inv hpkt r).out
  refine ⟨hk, ho, passes (F := Coder.vertical (R.fecV c.b) mem junk junk') (Inv := fun s => c.Reachable pkt R s.1 s.2.1)
    (show 0 < (R.fecV c.b).base.n_data by rw [hk]; exact hc.hk) ?_
    (Nat.mul_pos h0 (by rcases hc.hw with h | h <;> omega)) (fun d h1 h2 => ?_) hr⟩
  · show (R.fecV c.b).base.n_outputs = if c.sys then c.m else (R.fecV c.b).base.n_data + c.m
    rw [ho, hk]
    rfl
  · obtain ⟨fr, pr, _, h⟩ := codes_fnt hc (data_fnt (h1.trans hk) h2) hT
    exact ⟨fr, pr, (h pkt R C H hpkt hr mem junk junk').1⟩

private theorem passesWords {Γ : Type} {E : Fec Γ} {st : Array Nat → Nat → Nat} {mk : Array Nat → Nat → Option Nat} {A : Array Nat → Prop}
    (H : E.HSpec st mk A) (hA : ∀ ids, A ids) (hmk : ∀ a f v, mk a f = some v → v < 2 ^ 32) {w k n m T : Nat}
    {sys : Bool} (hw : E.base.word_size = w) (hk : E.base.n_data = k) (hn : E.base.n_outputs = n) (hs : E.base.sys = sys)
    (hk0 : 0 < k) (hw0 : 0 < w) (hm : n = if sys then m else k + m) (h0 : 0 < T) (hT : T ≤ 2 ^ 64) :
    PassesWords E w k n m sys T ∧ ∀ x, x < w → x ≤ 4 → LeavesEnds E w k n m sys T x := by
  refine ⟨?_, fun x hx h4 => leavesEnds H hA hw hk hn hs hm h0 hx h4⟩
  subst hw hk hn hs
  refine ⟨rfl, rfl, fun mem mem' s => passes (Inv := fun _ => True) hk0 hm (Nat.mul_pos h0 hw0) (fun d h1 h2 => ?_) trivial⟩
  obtain ⟨q1, q2, _, q4⟩ := data_words hk0 hw0 h1 h2
  obtain ⟨fr, pr, h⟩ := codes_horizontal H hA hmk q4.size q4.bytes ⟨q4.full, q4.last⟩ hT
  refine ⟨fr, pr, ?_⟩
  have := (h mem mem').1
  rw [C53_whole_words q1 q2] at this
  exact this

private theorem wpos {w : Nat} (h : w ∈ [1, 2, 4, 8, 16]) : 0 < w := by
  simp at h; omega

private theorem both_fnt_words {c : FntCode} (hc : c.Ok) (hs : c.sys = false) (pkt : Nat) (mem : Nat → Nat) {T : Nat} (h0 : 0 < T) (hT : T ≤ 2 ^ 64) :
    ∃ B, RsFnt.mkBase c.b c.db c.sys c.w c.k c.m pkt mem = .ok B ∧ PassesWords (RsFnt.fec B) c.w c.k (c.k + c.m) c.m false T ∧
      ∀ x, x < c.w → x ≤ 4 → LeavesEnds (RsFnt.fec B) c.w c.k (c.k + c.m) c.m false T x := by
  obtain ⟨p, n, _, g, r⟩ := FntCode.exists_root hc
  obtain ⟨B, e, hw, hk, hn, H⟩ := r.horiz hs pkt mem
  obtain ⟨_, R, _, he, I⟩ := r.new none (by simp [FntCode.Builds]) pkt mem (fun _ _ => 0) #[]
  have hsys : B.sys = false := by
    rw [e] at he
    rw [Except.ok.inj he, I.sys, hs]
  refine ⟨B, e, passesWords H (fun _ => trivial) (fun a f v hv => ?_) hw hk (hn.trans (by unfold FntCode.nOut; rw [hs]; rfl)) hsys hc.hk
    (by rcases hc.hw with h | h <;> omega) rfl h0 hT⟩
  unfold FntCode.mark at hv
  split at hv
  · injection hv with hv; rw [← hv]; decide
  · cases hv

private theorem passes_gf2n {b w k m : Nat} (h : Gf2nParams b w k m) (type : RsGf2n.MatType) (ht : type = .vandermonde ∨ m ≤ 2) (mem : Nat → Nat)
    (junk : Nat → Nat → Nat) (junk3 : Nat → Nat → Nat → Nat) {T : Nat} (h0 : 0 < T) (hT : T ≤ 2 ^ 64) :
    ∃ E, RsGf2n.mk' b w k m type mem junk junk3 = .ok E ∧ PassesWords E w k m m true T ∧
      ∀ x, x < w → x ≤ 4 → LeavesEnds E w k m m true T x := by
  obtain ⟨hws, hw16⟩ := Gf2nRec.gf2n_wordSize h
  haveI := fact_of (size_of h.field.size)
  obtain ⟨O, B, mat, f, e, i1, v1, hu, _⟩ := RsGf2n.mk'_spec h.field hw16 h.hk h.len type mem junk junk3
  refine ⟨_, e, ?_⟩
  have H := RsGf2n.hspec B.full hws (fun a => by show a < 2 ^ (8 * w) ↔ _; rw [Nat.pow_mul]) h.hk i1 v1
  refine passesWords H (fun ids hv => hu ids hv ?_) (fun a f v hv => by cases hv) rfl rfl rfl rfl h.hk (wpos h.hw) rfl h0 hT
  rcases ht with ht | ht
  · exact .inl ht
  · refine .inr (.inr (.inr ?_))
    have hinj : Set.InjOn (gt ids) ((Finset.range k).filter (fun a => k ≤ gt ids a)) := by
      intro a ha a' ha' hE
      exact hv.inj a a' (by simpa using (Finset.mem_filter.1 ha).1) (by simpa using (Finset.mem_filter.1 ha').1) hE
    have hsub : ((Finset.range k).filter (fun a => k ≤ gt ids a)).image (gt ids) ⊆ Finset.Ico k (k + m) := by
      intro x hx
      obtain ⟨a, ha, rfl⟩ := Finset.mem_image.1 hx
      obtain ⟨p1, p2⟩ := Finset.mem_filter.1 ha
      exact Finset.mem_Ico.2 ⟨p2, hv.lt a (Finset.mem_range.1 p1)⟩
    have := Finset.card_le_card hsub
    rw [Finset.card_image_of_injOn hinj, Nat.card_Ico] at this
    omega

private theorem both_vandermonde {b w k m : Nat} (h : Gf2nParams b w k m) (mem : Nat → Nat) (junk : Nat → Nat → Nat) (junk3 : Nat → Nat → Nat → Nat)
    {T : Nat} (h0 : 0 < T) (hT : T ≤ 2 ^ 64) :
    ∃ E, RsGf2n.mk' b w k m .vandermonde mem junk junk3 = .ok E ∧ PassesWords E w k m m true T ∧
      ∀ x, x < w → x ≤ 4 → LeavesEnds E w k m m true T x :=
  passes_gf2n h .vandermonde (.inl rfl) mem junk junk3 h0 hT

private theorem both_cauchy {b w k m : Nat} (h : Gf2nParams b w k m) (hm : m ≤ 2) (mem : Nat → Nat) (junk : Nat → Nat → Nat)
    (junk3 : Nat → Nat → Nat → Nat) {T : Nat} (h0 : 0 < T) (hT : T ≤ 2 ^ 64) :
    ∃ E, RsGf2n.mk' b w k m .cauchy mem junk junk3 = .ok E ∧ PassesWords E w k m m true T ∧
      ∀ x, x < w → x ≤ 4 → LeavesEnds E w k m m true T x :=
  passes_gf2n h .cauchy (.inr hm) mem junk junk3 h0 hT

private theorem both_multiplicative {b w k m : Nat} (h : Gf2nFftParams b w k m) (mem : Nat → Nat) (junk : Nat → Nat → Nat)
    (junk3 : Nat → Nat → Nat → Nat) {T : Nat} (h0 : 0 < T) (hT : T ≤ 2 ^ 64) :
    ∃ B, RsGf2nFft.mkBase b w k m mem junk junk3 = .ok B ∧ PassesWords (RsGf2nFft.fec B) w k (k + m) m false T ∧
      ∀ x, x < w → x ≤ 4 → LeavesEnds (RsGf2nFft.fec B) w k (k + m) m false T x := by
  obtain ⟨K, _, B, S, n, l2, g2, e, hw, G⟩ := RsGf2nFft.mkBase_spec h mem junk junk3
  subst hw
  refine ⟨B, e, passesWords (FftCode.hspec G (RsGf2nFft.is_fec B) (RsGf2nFft.post_spec B _) (RsGf2nFft.prep_spec B _)) (fun _ => trivial)
    (fun a f v hv => ?_) rfl G.n_data G.n_outputs G.sys h.hk (wpos h.hw) rfl h0 hT⟩
  unfold FftCode.markOf at hv
  split at hv
  · injection hv with hv; rw [← hv]; decide
  · cases hv

private theorem both_gfp {b db w k m : Nat} (h : GfpParams b db w k m) (mem : Nat → Nat) {T : Nat} (h0 : 0 < T) (hT : T ≤ 2 ^ 64) :
    ∃ c, RsGfpFft.mkBase b db w k m mem = .ok c ∧ PassesWords (RsGfpFft.fec b c) w k (k + m) m false T ∧
      ∀ x, x < w → x ≤ 4 → LeavesEnds (RsGfpFft.fec b c) w k (k + m) m false T x := by
  obtain ⟨p, _, B, S, n, l2, g2, e, hw, hp, G⟩ := RsGfpFft.mkBase_spec h mem
  subst hw
  refine ⟨(B, 256 ^ B.word_size), e, passesWords (FftCode.hspec G (RsGfpFft.is_fec b _)
    (RsGfpFft.post_spec (by positivity) (G.code_len.trans G.n_outputs.symm)) (RsGfpFft.prep_spec hp)) (fun _ => trivial)
    (fun a f v hv => ?_) rfl G.n_data G.n_outputs G.sys h.hk (by rcases h.word with ⟨h | h, _⟩ | ⟨h, _⟩ <;> omega) rfl h0 hT⟩
  unfold FftCode.markOf at hv
  split at hv
  · injection hv with hv; rw [← hv]; decide
  · cases hv

private theorem both_additive {b w k m : Nat} (h : Gf2nFftAddParams b w k m) (h2 : 2 * k < 2 ^ (8 * w)) (mem : Nat → Nat)
    (junk : Nat → Nat → Nat) (junk3 : Nat → Nat → Nat → Nat) {T : Nat} (h0 : 0 < T) (hT : T ≤ 2 ^ 64) :
    ∃ c, RsGf2nFftAdd.mkCode b w k m mem junk junk3 = .ok c ∧ PassesWords (RsGf2nFftAdd.fec c) w k (k + m) m false T ∧
      ∀ x, x < w → x ≤ 4 → LeavesEnds (RsGf2nFftAdd.fec c) w k (k + m) m false T x := by
  obtain ⟨K, _, c, S, n, pt, e, G, hl, _⟩ := RsGf2nFftAdd.mkCode_spec h mem junk junk3
  exact ⟨c, e, passesWords (RsGf2nFftAdd.hspec G (hl h2)) (fun _ => trivial) (fun a f v hv => by cases hv) G.word G.n_data G.n_outputs
    G.sys h.hk (wpos h.hw) rfl h0 hT⟩

private theorem both_nf4_words {b w k m pkt : Nat} {simd : Option (Nat × (Nat → Nat))} (h : Nf4Params b simd w k m) (mem : Nat → Nat) {T : Nat}
    (h0 : 0 < T) (hT : T ≤ 2 ^ 64) :
    ∃ c, RsNf4.mkCode b simd w k m pkt mem = .ok c ∧ PassesWords (RsNf4.fec c) w k (k + m) m false T ∧
      ∀ x, x < w → x ≤ 4 → LeavesEnds (RsNf4.fec c) w k (k + m) m false T x := by
  obtain ⟨c, e, hw, S, n, l2, g, g2, okLen, G⟩ := RsNf4.mkCode_spec (pkt := pkt) h mem
  refine ⟨c, e, passesWords (RsNf4.hspec G) (fun _ => trivial) (fun a f v hv => ?_) hw G.n_data G.n_outputs G.sys h.hk
    (by rcases h.hw with h | h | h <;> omega) rfl h0 hT⟩
  unfold RsNf4.markOf at hv
  split at hv
  · injection hv with hv
    rw [← hv]
    have h1 := (C16_pack_unpack G.H (RsNf4.sym_packed (w / 2) g a f).1).2.1
    refine h1.trans_le (Nat.pow_le_pow_right (by omega) ?_)
    rcases h.hw with h | h | h <;> omega
  · cases hv

/-- C71 for the non-systematic Fermat number code word by word. -/
theorem C71_fnt_words {c : FntCode} (hc : c.Ok) (hs : c.sys = false) (pkt : Nat) (mem : Nat → Nat) {T : Nat} (h0 : 0 < T) (hT : T ≤ 2 ^ 64) :
    ∃ B, RsFnt.mkBase c.b c.db c.sys c.w c.k c.m pkt mem = .ok B ∧ PassesWords (RsFnt.fec B) c.w c.k (c.k + c.m) c.m false T :=
  let ⟨B, e, h, _⟩ := both_fnt_words hc hs pkt mem h0 hT
  ⟨B, e, h⟩

/-- C71 for the Vandermonde code. -/
theorem C71_vandermonde {b w k m : Nat} (h : Gf2nParams b w k m) (mem : Nat → Nat) (junk : Nat → Nat → Nat) (junk3 : Nat → Nat → Nat → Nat)
    {T : Nat} (h0 : 0 < T) (hT : T ≤ 2 ^ 64) :
    ∃ E, RsGf2n.mk' b w k m .vandermonde mem junk junk3 = .ok E ∧ PassesWords E w k m m true T :=
  let ⟨E, e, h, _⟩ := both_vandermonde h mem junk junk3 h0 hT
  ⟨E, e, h⟩

/-- C71 for the Cauchy code with at most two parities.  Missing: three or more, for which the code cannot always recover
(`C28_three_losses_fail`). -/
theorem C71_cauchy_partial {b w k m : Nat} (h : Gf2nParams b w k m) (hm : m ≤ 2) (mem : Nat → Nat) (junk : Nat → Nat → Nat)
    (junk3 : Nat → Nat → Nat → Nat) {T : Nat} (h0 : 0 < T) (hT : T ≤ 2 ^ 64) :
    ∃ E, RsGf2n.mk' b w k m .cauchy mem junk junk3 = .ok E ∧ PassesWords E w k m m true T :=
  let ⟨E, e, h, _⟩ := both_cauchy h hm mem junk junk3 h0 hT
  ⟨E, e, h⟩

/-- C71 for the code on the multiplicative FFT over GF(2^n). -/
theorem C71_multiplicative {b w k m : Nat} (h : Gf2nFftParams b w k m) (mem : Nat → Nat) (junk : Nat → Nat → Nat)
    (junk3 : Nat → Nat → Nat → Nat) {T : Nat} (h0 : 0 < T) (hT : T ≤ 2 ^ 64) :
    ∃ B, RsGf2nFft.mkBase b w k m mem junk junk3 = .ok B ∧ PassesWords (RsGf2nFft.fec B) w k (k + m) m false T :=
  let ⟨B, e, h, _⟩ := both_multiplicative h mem junk junk3 h0 hT
  ⟨B, e, h⟩

/-- C71 for the code on FFTs over GF(p).  Missing: the parameters `C31_recovery_partial` leaves out. -/
theorem C71_gfp_partial {b db w k m : Nat} (h : GfpParams b db w k m) (mem : Nat → Nat) {T : Nat} (h0 : 0 < T) (hT : T ≤ 2 ^ 64) :
    ∃ c, RsGfpFft.mkBase b db w k m mem = .ok c ∧ PassesWords (RsGfpFft.fec b c) w k (k + m) m false T :=
  let ⟨c, e, h, _⟩ := both_gfp h mem h0 hT
  ⟨c, e, h⟩

/-- C71 for the code on the additive FFT.  Missing: the parameters for which decoding fails (`C30_additive_decoding_asserts`). -/
theorem C71_additive_partial {b w k m : Nat} (h : Gf2nFftAddParams b w k m) (h2 : 2 * k < 2 ^ (8 * w)) (mem : Nat → Nat)
    (junk : Nat → Nat → Nat) (junk3 : Nat → Nat → Nat → Nat) {T : Nat} (h0 : 0 < T) (hT : T ≤ 2 ^ 64) :
    ∃ c, RsGf2nFftAdd.mkCode b w k m mem junk junk3 = .ok c ∧ PassesWords (RsGf2nFftAdd.fec c) w k (k + m) m false T :=
  let ⟨c, e, h, _⟩ := both_additive h h2 mem junk junk3 h0 hT
  ⟨c, e, h⟩

/-- C71 for the packed Fermat code word by word. -/
theorem C71_nf4_words {b w k m pkt : Nat} {simd : Option (Nat × (Nat → Nat))} (h : Nf4Params b simd w k m) (mem : Nat → Nat) {T : Nat}
    (h0 : 0 < T) (hT : T ≤ 2 ^ 64) :
    ∃ c, RsNf4.mkCode b simd w k m pkt mem = .ok c ∧ PassesWords (RsNf4.fec c) w k (k + m) m false T :=
  let ⟨c, e, h, _⟩ := both_nf4_words (pkt := pkt) h mem h0 hT
  ⟨c, e, h⟩

/-- C71 for the packed Fermat code in packets. -/
theorem C71_nf4 {b w k m pkt : Nat} {reg : Option Nat} {hi : Nat → Nat} (hreg : Nf4Reg reg) (h : Nf4Params b (RsNf4Obj.nf4Simd b reg hi) w k m)
    (hpkt : 0 < pkt) (mem0 : Nat → Nat) {T : Nat} (h0 : 0 < T) (hT : T ≤ 2 ^ 64) :
    ∃ R, RsNf4Obj.mk' b reg hi w k m pkt mem0 = .ok R ∧ (R.fecV b).base.n_data = k ∧ (R.fecV b).base.n_outputs = k + m ∧
      ∀ mem junk junk' s, Passes (Coder.vertical (R.fecV b) mem junk junk') false m (T * w) s := by
  obtain ⟨n, g, hg, hn, hall⟩ := RsNf4Obj.mk'_spec h.hk h.hm h.len
  obtain ⟨R, e, _, e1, e2, S, n', l2, g2, o1, o2, o3, G⟩ := hall (pkt := pkt) (hi := hi) hreg h mem0
  have hk : (R.fecV b).base.n_data = k := G.good.n_data
  have ho : (R.fecV b).base.n_outputs = k + m := G.good.n_outputs
  have hw0 : 0 < w := by rcases h.hw with h | h | h <;> omega
  refine ⟨R, e, hk, ho, fun mem junk junk' s => passes (Inv := fun _ => True)
    (show 0 < (R.fecV b).base.n_data by rw [hk]; exact h.hk) ?_ (Nat.mul_pos h0 hw0)
    (fun d h1 h2 => ?_) trivial⟩
  · show (R.fecV b).base.n_outputs = (R.fecV b).base.n_data + m
    rw [ho, hk]
  · obtain ⟨q1, q2, q3, q4⟩ := data_words h.hk hw0 (h1.trans hk) h2
    obtain ⟨frags, fprops, hI⟩ := CodeOf.exists w k (k + m) (RsNf4Obj.cstored (w / 2) g) (RsNf4Obj.cmark (w / 2) g) (dataOf d) T
    have hV := RsNf4Obj.vspec (b := b) G
    rw [RsNf4Obj.stored_eq G.good.H, RsNf4Obj.markOf_eq G.good.H] at hV
    have hP : PacketCode (R.fecV b) w k m T (dataOf d) frags fprops :=
      PacketCode.of hV (by show 0 < R.code.base.pkt_size; omega) G.good.sys e1 G.good.n_data G.good.n_outputs ⟨q1, q2, q3⟩ hI
    refine ⟨frags, fprops, q1.trans hk.symm, hI.fsize.trans ho.symm, hI.psize.trans ho.symm, ?_, ?_, ?_, ?_⟩
    · intro f i hf hi
      change f < (R.fecV b).base.n_outputs at hf
      change i < (R.fecV b).base.n_data at hi
      rw [hI.frag f (by omega), flat_length, q2 i (by omega)]
    · intro f hf it hit
      change f < (R.fecV b).base.n_outputs at hf
      rw [hI.prop f (by omega)] at hit
      obtain ⟨a1, a2⟩ := mem_marksOf.1 hit
      refine ⟨by omega, ?_⟩
      unfold RsNf4Obj.cmark at a2
      split at a2
      · injection a2 with a2
        rw [← a2]
        refine (IsNf4.flagOf_lt (w / 2) _).trans_le (Nat.pow_le_pow_right (by omega) ?_)
        rcases h.hw with h | h | h <;> omega
      · cases a2
    · intro s _ d' hd' hdi ps hps
      change d'.size = (R.fecV b).base.n_data at hd'
      change ps.size = (R.fecV b).base.n_outputs at hps
      change ∀ i, i < (R.fecV b).base.n_data → _ at hdi
      have : d' = dataOf d := gt_ext (by omega) (fun i hi => by rcases hdi i (by omega) with h | h <;> exact h)
      subst this
      obtain ⟨o, e', H', eo, z, q⟩ := hP.encode s.1 (Array.replicate (k + m) []) ps (junk s.2.2) s.2.1 (by simp) (by omega)
      have ho' : o = frags.map some := gt_ext (by simp [z, hI.fsize]) (fun i hi => by
        rw [q i (by omega), gt_map (by rw [hI.fsize]; omega), gt_replicate (by omega), List.nil_append])
      refine ⟨(e', H', s.2.2 + 1), ?_, trivial⟩
      show ((R.fecV b).encode_streams_vertical s.1 (dataOf d) (Array.replicate (R.fecV b).base.n_outputs []) ps (junk s.2.2) s.2.1 >>= _) = _
      rw [ho, eo, ho']
      rfl
    · intro s _ datas pars outs props a1 a2 a3 a4 a5 a6 a7
      change pars.size = (R.fecV b).base.n_outputs at a2
      change props.size = (R.fecV b).base.n_outputs at a3
      change outs.size = (R.fecV b).base.n_data at a4
      change ∀ f t, f < (R.fecV b).base.n_outputs → _ at a6
      obtain ⟨v, o, H', eo, q⟩ := hP.decode datas pars outs props (mem s.2.2) (junk' s.2.2) s.2.1 (by omega) (by omega) (by omega)
        (fun f t hf => a6 f t (by omega))
      refine ⟨v, o, (s.1, H', s.2.2 + 1), ?_, trivial, ?_⟩
      · show ((R.fecV b).decode_streams_vertical datas pars props outs (mem s.2.2) (junk' s.2.2) s.2.1 >>= _) = _
        rw [eo]; rfl
      · intro hlt
        change avail datas < (R.fecV b).base.n_data at hlt
        have hge : k ≤ avail pars := by
          rcases a7 with h | h
          · change avail datas = (R.fecV b).base.n_data at h; omega
          · change (R.fecV b).base.n_data ≤ 0 + avail pars at h; omega
        rw [if_neg (by omega)] at q
        exact ⟨q.1, q.2.1.trans hk.symm, fun i hi => q.2.2 i (by change i < (R.fecV b).base.n_data at hi; omega)⟩

/-! ## Chunks that are not whole words -/

/-- C71 fails for chunks that are not whole words, word by word, with the non-systematic Fermat number code: the bytes after the words are
neither coded nor decoded, and the scenarios report success if and only if memory happened to hold them.  Missing: more than 4 bytes after the words, for which the check of
the chunks can miss a difference. -/
theorem C71_fnt_ends_partial {c : FntCode} (hc : c.Ok) (hs : c.sys = false) (pkt : Nat) (mem : Nat → Nat) {T x : Nat} (h0 : 0 < T) (hT : T ≤ 2 ^ 64) (hx : x < c.w)
    (h4 : x ≤ 4) :
    ∃ B, RsFnt.mkBase c.b c.db c.sys c.w c.k c.m pkt mem = .ok B ∧ LeavesEnds (RsFnt.fec B) c.w c.k (c.k + c.m) c.m false T x :=
  let ⟨B, e, _, h⟩ := both_fnt_words hc hs pkt mem h0 hT
  ⟨B, e, h x hx h4⟩

/-- C71 fails for chunks that are not whole words, word by word, with the Vandermonde code: the bytes after the words are
neither coded nor decoded, and the scenarios report success if and only if memory happened to hold them.  Missing: more than 4 bytes after the words. -/
theorem C71_vandermonde_ends_partial {b w k m : Nat} (h : Gf2nParams b w k m) (mem : Nat → Nat) (junk : Nat → Nat → Nat) (junk3 : Nat → Nat → Nat → Nat)
    {T x : Nat} (h0 : 0 < T) (hT : T ≤ 2 ^ 64) (hx : x < w)
    (h4 : x ≤ 4) :
    ∃ E, RsGf2n.mk' b w k m .vandermonde mem junk junk3 = .ok E ∧ LeavesEnds E w k m m true T x :=
  let ⟨E, e, _, h⟩ := both_vandermonde h mem junk junk3 h0 hT
  ⟨E, e, h x hx h4⟩

/-- C71 fails for chunks that are not whole words, word by word, with the Cauchy code with at most two parities: the bytes after the words are
neither coded nor decoded, and the scenarios report success if and only if memory happened to hold them.  Missing: more than 4 bytes after the words,
and the parameters `C71_cauchy_partial` leaves out. -/
theorem C71_cauchy_ends_partial {b w k m : Nat} (h : Gf2nParams b w k m) (hm : m ≤ 2) (mem : Nat → Nat) (junk : Nat → Nat → Nat)
    (junk3 : Nat → Nat → Nat → Nat) {T x : Nat} (h0 : 0 < T) (hT : T ≤ 2 ^ 64) (hx : x < w)
    (h4 : x ≤ 4) :
    ∃ E, RsGf2n.mk' b w k m .cauchy mem junk junk3 = .ok E ∧ LeavesEnds E w k m m true T x :=
  let ⟨E, e, _, h⟩ := both_cauchy h hm mem junk junk3 h0 hT
  ⟨E, e, h x hx h4⟩

/-- C71 fails for chunks that are not whole words, word by word, with the code on the multiplicative FFT over GF(2^n): the bytes after the words are
neither coded nor decoded, and the scenarios report success if and only if memory happened to hold them.  Missing: more than 4 bytes after the words. -/
theorem C71_multiplicative_ends_partial {b w k m : Nat} (h : Gf2nFftParams b w k m) (mem : Nat → Nat) (junk : Nat → Nat → Nat)
    (junk3 : Nat → Nat → Nat → Nat) {T x : Nat} (h0 : 0 < T) (hT : T ≤ 2 ^ 64) (hx : x < w)
    (h4 : x ≤ 4) :
    ∃ B, RsGf2nFft.mkBase b w k m mem junk junk3 = .ok B ∧ LeavesEnds (RsGf2nFft.fec B) w k (k + m) m false T x :=
  let ⟨B, e, _, h⟩ := both_multiplicative h mem junk junk3 h0 hT
  ⟨B, e, h x hx h4⟩

/-- C71 fails for chunks that are not whole words, word by word, with the code on FFTs over GF(p): the bytes after the words are
neither coded nor decoded, and the scenarios report success if and only if memory happened to hold them.  Missing: more than 4 bytes after the words,
and the parameters `C71_gfp_partial` leaves out. -/
theorem C71_gfp_ends_partial {b db w k m : Nat} (h : GfpParams b db w k m) (mem : Nat → Nat) {T x : Nat} (h0 : 0 < T) (hT : T ≤ 2 ^ 64) (hx : x < w)
    (h4 : x ≤ 4) :
    ∃ c, RsGfpFft.mkBase b db w k m mem = .ok c ∧ LeavesEnds (RsGfpFft.fec b c) w k (k + m) m false T x :=
  let ⟨c, e, _, h⟩ := both_gfp h mem h0 hT
  ⟨c, e, h x hx h4⟩

/-- C71 fails for chunks that are not whole words, word by word, with the code on the additive FFT: the bytes after the words are
neither coded nor decoded, and the scenarios report success if and only if memory happened to hold them.  Missing: more than 4 bytes after the words,
and the parameters `C71_additive_partial` leaves out. -/
theorem C71_additive_ends_partial {b w k m : Nat} (h : Gf2nFftAddParams b w k m) (h2 : 2 * k < 2 ^ (8 * w)) (mem : Nat → Nat)
    (junk : Nat → Nat → Nat) (junk3 : Nat → Nat → Nat → Nat) {T x : Nat} (h0 : 0 < T) (hT : T ≤ 2 ^ 64) (hx : x < w)
    (h4 : x ≤ 4) :
    ∃ c, RsGf2nFftAdd.mkCode b w k m mem junk junk3 = .ok c ∧ LeavesEnds (RsGf2nFftAdd.fec c) w k (k + m) m false T x :=
  let ⟨c, e, _, h⟩ := both_additive h h2 mem junk junk3 h0 hT
  ⟨c, e, h x hx h4⟩

/-- C71 fails for chunks that are not whole words, word by word, with the packed Fermat code: the bytes after the words are
neither coded nor decoded, and the scenarios report success if and only if memory happened to hold them.  Missing: more than 4 bytes after the words. -/
theorem C71_nf4_ends_partial {b w k m pkt : Nat} {simd : Option (Nat × (Nat → Nat))} (h : Nf4Params b simd w k m) (mem : Nat → Nat) {T x : Nat}
    (h0 : 0 < T) (hT : T ≤ 2 ^ 64) (hx : x < w)
    (h4 : x ≤ 4) :
    ∃ c, RsNf4.mkCode b simd w k m pkt mem = .ok c ∧ LeavesEnds (RsNf4.fec c) w k (k + m) m false T x :=
  let ⟨c, e, _, h⟩ := both_nf4_words (pkt := pkt) h mem h0 hT
  ⟨c, e, h x hx h4⟩

/-- C71 fails, for any code the theorems above are about: whatever the data, there are contents of memory with which the scenarios that decode report a
failure, whatever fragments are lost, although the code works. -/
theorem C71_part_words_fail {Γ : Type} {E : Fec Γ} {w k n m T x : Nat} {sys : Bool} (h : LeavesEnds E w k n m sys T x) (hk : 0 < k) (hx : 0 < x)
    (mem mem' : Nat → Nat → Nat) (st : State (Coder.horizontal E mem mem').σ) (hr : Room k n (T * w + x) st) :
    ∃ r, Room k n (T * w + x) { st with r := r } ∧ ∀ shuffles, shuffles ≠ [] → (∀ l ∈ shuffles, Shuffles sys k (k + m) l) →
      (∃ st', dec_only (Coder.horizontal E mem mem') sys (T * w + x) shuffles { st with r := r } = .ok (false, st')) ∧
      ∃ st', enc_dec (Coder.horizontal E mem mem') sys (T * w + x) shuffles { st with r := r } = .ok (false, st') := by
  obtain ⟨_, _, h⟩ := h
  have hroom : ∀ c, Room k n (T * w + x) { st with r := List.replicate k (Array.replicate (T * w + x) c) } :=
    fun c => ⟨hr.d, hr.c, by simp +contextual, hr.props⟩
  have hch : ∀ c, c < 256 → ∀ b ∈ List.replicate k (Array.replicate (T * w + x) c), Chunk (T * w + x) b := by
    intro c hc b hb
    rw [(List.mem_replicate.1 hb).2]
    exact ⟨by simp, fun i hi => by rw [gt_replicate hi]; exact hc⟩
  obtain ⟨d, P, e, _⟩ := h mem mem' _ (hroom 0) (hch 0 (by omega))
  obtain ⟨c, hc, hne⟩ : ∃ c, c < 256 ∧ gt (d.getD 0 #[]) (T * w) ≠ c := by
    by_cases h0 : gt (d.getD 0 #[]) (T * w) = 0
    · exact ⟨1, by omega, by omega⟩
    · exact ⟨0, by omega, h0⟩
  obtain ⟨d', P', e', _, h'⟩ := h mem mem' _ (hroom c) (hch c hc)
  have hd : d' = d := by
    have e'' := e'.symm.trans e
    injection e'' with e''
    injection e'' with e'' _
  subst hd
  have hs : ¬ SameEnds (T * w) (List.replicate k (Array.replicate (T * w + x) c)) d' := by
    intro q
    have := q 0 (T * w) (by simpa using hk) le_rfl
    rw [List.getD_replicate _ hk, gt_replicate (by omega)] at this
    exact hne this.symm
  refine ⟨_, hroom c, fun sh h1 h2 => ?_⟩
  obtain ⟨⟨v, st', q, _, _, _, q'⟩, ⟨v2, st2, p, _, _, _, p'⟩⟩ := h' sh h1 h2
  constructor
  · cases v
    · exact ⟨st', q⟩
    · exact absurd (q'.1 rfl) hs
  · cases v2
    · exact ⟨st2, p⟩
    · exact absurd (p'.1 rfl) hs

/-! ## What success says -/

private theorem decode_true {F : Coder} {sys : Bool} {size : Nat} {sh : List (Array Nat)} {st st' : State F.σ} (h : Bench.decode F sys size sh st = .ok (true, st')) :
    Bench.compare size st'.d st'.r = .ok true := by
  unfold Bench.decode at h
  obtain ⟨⟨d, c⟩, _, h⟩ := bind_ok h
  obtain ⟨⟨v, o, s⟩, _, h⟩ := bind_ok h
  simp only at h
  cases v
  · simp only [Bool.not_false, if_true] at h
    cases h
  simp only [Bool.not_true, Bool.false_eq_true, if_false] at h
  obtain ⟨x, hx, h⟩ := bind_ok h
  cases x
  · simp only [Bool.not_false, if_true] at h
    cases h
  simp only [Bool.not_true, Bool.false_eq_true, if_false] at h
  obtain ⟨y, _, h⟩ := bind_ok h
  cases y
  · simp only [Bool.not_false, if_true] at h
    cases h
  simp only [Bool.not_true, Bool.false_eq_true, if_false] at h
  have h := Except.ok.inj h
  injection h with _ h
  rw [← h]
  exact hx

private theorem decLoop_true {F : Coder} {both sys : Bool} {size : Nat} : ∀ {sh : List (List (Array Nat))} {st st' : State F.σ}, sh ≠ [] →
    decLoop F both sys size sh st = .ok (true, st') → Bench.compare size st'.d st'.r = .ok true
  | [], _, _, h, _ => absurd rfl h
  | l :: rest, st, st', _, h => by
    obtain ⟨st1, h⟩ : ∃ st1, (do
        let (v, st) ← Bench.decode F sys size l st1
        if v then decLoop F both sys size rest st else pure (false, st)) = .ok (true, st') := by
      unfold decLoop at h
      simp only at h
      split at h <;> obtain ⟨st1, _, h⟩ := bind_ok h <;> exact ⟨st1, h⟩
    obtain ⟨⟨v, st2⟩, h2, h⟩ := bind_ok h
    simp only at h
    cases v
    · simp only [Bool.false_eq_true, if_false] at h
      cases h
    simp only [if_true] at h
    by_cases hr : rest = []
    · subst hr
      have h := Except.ok.inj h
      injection h with _ h
      rw [← h]
      exact decode_true h2
    · exact decLoop_true hr h

/-- C71, what success says: with any code whatever, right or wrong, a scenario that decodes reports success only if the chunks decoded last compare equal to the
data (C70 says what that means); for chunks of 4 to 8 bytes, only if they are the data.  Missing: other sizes, for which different chunks can compare equal
(`C70_comparison_misses`). -/
theorem C71_success_partial (F : Coder) {sys : Bool} {size : Nat} {sh : List (List (Array Nat))} (hne : sh ≠ []) {st st' : State F.σ}
    (h : dec_only F sys size sh st = .ok (true, st') ∨ enc_dec F sys size sh st = .ok (true, st')) :
    Bench.compare size st'.d st'.r = .ok true ∧
      (4 ≤ size → size ≤ 8 → (∀ b ∈ st'.d, Chunk size b) → (∀ b ∈ st'.r, Chunk size b) → st'.r = st'.d) := by
  have key : Bench.compare size st'.d st'.r = .ok true := by
    rcases h with h | h
    · unfold dec_only at h
      obtain ⟨_, _, h⟩ := bind_ok h
      obtain ⟨_, _, h⟩ := bind_ok h
      exact decLoop_true hne h
    · unfold enc_dec at h
      obtain ⟨_, _, h⟩ := bind_ok h
      exact decLoop_true hne h
  exact ⟨key, fun h4 h8 hd hr => (C70_equal_partial h4 h8 hd hr key).symm⟩

/-! ## Runs that do not pass -/

/-- C71 fails: with a systematic code without parities, which the benchmark accepts, no decoding ever ends, whatever the shuffles. -/
theorem C71_no_parities_never_ends (F : Coder) (hn : F.n_outputs = 0) (size : Nat) (st : State F.σ) (sh : List (Array Nat))
    (h : ∀ ids ∈ sh, Order F.n_data ids) : Bench.decode F true size sh st = .error .diverges := by
  have key : get_avail_chunks true F.n_data 0 sh = .error .diverges := by
    induction sh with
    | nil => rfl
    | cons ids l ih =>
      obtain ⟨d, c, e, _⟩ := pick_spec (sys := true) (k := F.n_data) (m := 0) (h ids (by simp))
      unfold get_avail_chunks
      rw [if_pos rfl] at e
      rw [e, ok_bind]
      have hall : (List.range F.n_data).countP (fun i => decide (true = true ∧ gt ids i < F.n_data)) = F.n_data := by
        rw [List.countP_eq_length.2, List.length_range]
        intro i hi
        have hs : ids.size = F.n_data := by have := (h ids (by simp)).length_eq; simpa using this
        have : gt ids i ∈ List.range F.n_data := (h ids (by simp)).mem_iff.1 (by rw [gt_eq (by rw [hs]; exact List.mem_range.1 hi)]; simp)
        simpa using this
      simp only
      rw [if_pos (by simpa using hall)]
      exact ih (fun x hx => h x (by simp [hx]))
  unfold Bench.decode
  rw [hn, key]
  rfl

/-- C71 fails: with the systematic Fermat number code and no more parities than data, every decoding word by word is undefined behaviour.
The benchmark decodes word by word with the option `-p 0`, and with the code `all`, which is the default. -/
theorem C71_systematic_words_undefined {b db w k m : Nat} (hT : WordType b db) (hP : FntParams w k m) (hmk : m ≤ k) (pkt : Nat)
    (mem0 : Nat → Nat) {size : Nat} (hsize : w ≤ size) :
    ∃ B, RsFnt.mkBase b db true w k m pkt mem0 = .ok B ∧ (RsFnt.fec B).base.n_data = k ∧ (RsFnt.fec B).base.n_outputs = m ∧
      ∀ mem mem' (st : State Nat), Room k m size st → ∀ sh, Shuffles true k (k + m) sh →
        Bench.decode (Coder.horizontal (RsFnt.fec B) mem mem') true size sh st = .error .ub := by
  have : Fact (2 ^ (8 * w) + 1).Prime := ⟨hP.prime⟩
  obtain ⟨B, eB, hs, hw, _, S, n, l2, g, g2, okL, G⟩ := hP.build hT true pkt mem0
  have hk : (RsFnt.fec B).base.n_data = k := G.n_data
  have hn : (RsFnt.fec B).base.n_outputs = m := by
    show B.n_outputs = m
    rw [G.n_outputs, hs]; rfl
  refine ⟨B, eB, hk, hn, fun mem mem' st hr sh hsh => ?_⟩
  obtain ⟨md, mc, e, h1, h2, h3, h4, _⟩ := get_avail_spec hP.hk hsh
  rw [if_pos rfl] at e h2
  have hd := hr.d.1
  have hc := hr.c.1
  unfold Bench.decode
  rw [show (Coder.horizontal (RsFnt.fec B) mem mem').n_data = k from hk, show (Coder.horizontal (RsFnt.fec B) mem mem').n_outputs = m from hn,
    e, ok_bind]
  simp only
  obtain ⟨B', eB', hub⟩ := C25_horizontal_systematic_undefined hT hP hmk pkt mem0 (mem' st.fec) (datas := streams md st.d) (pars := streams mc st.c)
    (outs := Array.replicate k (some [])) (props := (List.zipWith (fun a p => if a then p else .empty) mc.toList st.props.toList).toArray)
    (by rw [streams_size _ _ (by omega), hd]) (by rw [streams_size _ _ (by omega), hc]) (by simp [h2, hr.props]) (by simp)
    (by show avail (streams md st.d) < k; rw [avail_streams (by omega)]; exact h3)
    (by show k ≤ avail (streams md st.d) + avail (streams mc st.c); rw [avail_streams (by omega), avail_streams (by omega)]; omega)
    (fun i s h => by
      have aux : ∀ (a : Array Bool) (l : List (Array Nat)), a.size = l.length → (∀ x ∈ l, x.size = size) → gt (streams a l) i = some s → w ≤ s.length := by
        intro a l ha hl hi
        by_cases hil : i < l.length
        · rw [streams_at ha hil] at hi
          split at hi
          · injection hi with hi
            rw [← hi, Array.length_toList, hl _ (List.getElem_mem hil)]
            exact hsize
          · cases hi
        · rw [gt, Array.getD_eq_getD_getElem?, Array.getElem?_eq_none (by rw [streams_size a l ha]; omega)] at hi
          cases hi
      rcases h with h | h
      · exact aux md st.d (by omega) hr.d.2 h
      · exact aux mc st.c (by omega) hr.c.2 h)
  rw [eB] at eB'
  rw [← Except.ok.inj eB'] at hub
  change ((RsFnt.fec B).decode_streams_horizontal _ _ _ _ (mem' st.fec) >>= _) >>= _ = _
  rw [hub]
  rfl

/-! ## The hypotheses can be met -/

/-- the loss of data chunks 0 and 1 of three, with two parities, after a shuffle that took only data chunks -/
example : Shuffles true 3 5 [#[2, 0, 1, 4, 3], #[4, 2, 3, 0, 1]] :=
  ⟨by unfold Order; decide +kernel, #[4, 2, 3, 0, 1], by simp, fun _ => ⟨0, by decide, by decide⟩⟩

example : Shuffles false 3 5 [#[0, 1, 2, 3, 4]] := ⟨by unfold Order; decide +kernel, #[0, 1, 2, 3, 4], by simp, fun h => by cases h⟩

/-- there is memory for any number of chunks -/
example {σ : Type} (k n size : Nat) (s : σ) : Room k n size
    ⟨⟨0, 1⟩, List.replicate k (Array.replicate size 0), List.replicate n (Array.replicate size 0), List.replicate k (Array.replicate size 0),
      Array.replicate n .empty, s⟩ :=
  ⟨by simp +contextual, by simp +contextual, by simp +contextual, by simp⟩

/-- the systematic code with three data and two parity fragments, in the state after it was made -/
example : ∃ R H, FntCode.Reachable ⟨32, 64, 2, 3, 2, true⟩ 1024 R R.enc_context H := by
  obtain ⟨H, R, e⟩ := C23_new (c := ⟨32, 64, 2, 3, 2, true⟩) ⟨by simp, by simp, by simp, by simp, by simp, by simp⟩ (simd := none)
    (by simp [FntCode.Builds]) 1024 (fun _ => 0) (fun _ _ => 0) #[]
  exact ⟨R, H, .new ⟨none, by simp [FntCode.Builds], _, _, _, e⟩⟩

/-- the parameters of the benchmark's defaults, three data and two parity chunks of words of 2 bytes, for `C71_systematic_words_undefined` -/
example : FntParams 2 3 2 ∧ WordType 32 64 := ⟨⟨by simp, by simp, by simp, by simp, by simp⟩, by simp [WordType]⟩

/-- chunks of four words of 2 bytes and one byte more with the Vandermonde code, three data and two parity chunks -/
example : ∃ E, RsGf2n.mk' 32 2 3 2 .vandermonde (fun _ => 0) (fun _ _ => 0) (fun _ _ _ => 0) = .ok E ∧ LeavesEnds E 2 3 2 2 true 4 1 :=
  C71_vandermonde_ends_partial (b := 32) ⟨by simp, ⟨by decide, by decide, by decide, by decide⟩, by simp, by simp⟩ _ _ _ (by omega) (by omega) (by omega) (by omega)

end Quad.Props
