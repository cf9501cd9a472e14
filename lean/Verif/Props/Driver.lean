import Verif.Lemmas.DriverCodes
import Verif.Lemmas.InteropFnt
import Verif.Props.FecGf2n
import Verif.Props.FecFft
import Verif.Props.FecFftAdd
import Verif.Props.FecNf4
import Verif.Props.NF4

/-!
# The program that codes and repairs files (C53, C54)

`Driver.run F N rflag s fs` is a run of the program with the files `fs` and a code object in the state `s`: the files afterwards and how it
ended.  `rflag` asks for a repair.  `KeepsFiles` (Spec/Driver.lean) is what C53 asks of a run.
-/

namespace Quad.Props
open Quad Quad.Spec Quad.Driver Quad.Gf2nRec

/-! ## C53: files are made and repaired -/

/-- C53: no two files of the program have the same name. -/
theorem C53_names (N : Names) (i j : Nat) : (N.d i = N.d j → i = j) ∧ (N.c i = N.c j → i = j) ∧ (N.p i = N.p j → i = j) ∧
    N.d i ≠ N.c j ∧ N.d i ≠ N.p j ∧ N.c i ≠ N.p j :=
  ⟨Names.d_inj, Names.c_inj, Names.p_inj, Names.d_ne_c, Names.d_ne_p, Names.c_ne_p⟩

private theorem count_digits_decStr {n : Nat} (h : 0 < n) : count_digits n = (Properties.decStr n).length := by
  induction n using Nat.strong_induction_on with
  | _ n ih =>
    unfold count_digits Properties.decStr
    rw [dif_neg (by omega)]
    split
    · rw [Nat.div_eq_of_lt (by assumption)]
      simp [count_digits]
    · rw [ih (n / 10) (by omega) (by omega)]
      simp

private theorem decStr_length_mono {a b : Nat} (h : a ≤ b) : (Properties.decStr a).length ≤ (Properties.decStr b).length := by
  induction b using Nat.strong_induction_on generalizing a with
  | _ b ih =>
    rw [Properties.decStr, Properties.decStr.eq_1 b]
    split
    · split <;> simp
    · rw [dif_neg (by omega)]
      simpa using ih (b / 10) (by omega) (Nat.div_le_div_right h)

private theorem names_eq (pfx : List Char) {k n : Nat} (h0 : 0 < k) (hk : k ≤ 2 ^ 32) (h1 : 0 < n) (hn : n ≤ 2 ^ 32) :
    names pfx k n = ⟨pfx, count_digits (k - 1), count_digits (n - 1)⟩ := by
  unfold names
  rw [Names.mk.injEq]
  refine ⟨rfl, congrArg _ ?_, congrArg _ ?_⟩
  · unfold wrap; omega
  · unfold wrap; omega

private theorem pad_width {N i : Nat} (hi : i < N) :
    count_digits (N - 1) - (Properties.decStr i).length + (Properties.decStr i).length = (Properties.decStr (N - 1)).length := by
  have hm := decStr_length_mono (show i ≤ N - 1 by omega)
  by_cases h0 : N - 1 = 0
  · have : i = 0 := by omega
    subst this
    rw [h0]
    rw [show count_digits 0 = 0 by rw [count_digits]; rfl, Nat.zero_sub, Nat.zero_add]
  · rw [count_digits_decStr (by omega)]
    omega

/-- C53: the numbers in the names of the files of a code are written with leading zeros, so that all have as many digits as the largest. -/
theorem C53_names_padded (pfx : List Char) {k n : Nat} (h0 : 0 < k) (hk : k ≤ 2 ^ 32) (h1 : 0 < n) (hn : n ≤ 2 ^ 32) :
    (∀ i, i < k → ∃ z, (names pfx k n).d i = pfx ++ ['.', 'd'] ++ List.replicate z '0' ++ Properties.decStr i ∧
      z + (Properties.decStr i).length = (Properties.decStr (k - 1)).length) ∧
    ∀ i, i < n → ∃ z, (names pfx k n).c i = pfx ++ ['.', 'c'] ++ List.replicate z '0' ++ Properties.decStr i ∧
      (names pfx k n).p i = pfx ++ ['.', 'c'] ++ List.replicate z '0' ++ Properties.decStr i ++ ".props".toList ∧
      z + (Properties.decStr i).length = (Properties.decStr (n - 1)).length := by
  rw [names_eq pfx h0 hk h1 hn]
  exact ⟨fun i hi => ⟨_, by simp [Names.d, get_filename, pad], pad_width hi⟩,
    fun i hi => ⟨_, by simp [Names.c, get_filename, pad], by simp [Names.p, get_filename, pad], pad_width hi⟩⟩

example : (names ['f'] 10 11).d 7 = "f.d7".toList ∧ (names ['f'] 10 11).c 7 = "f.c07".toList := by decide +kernel

/-- C53 for the Fermat number code, in packets: the coding files are the fragments, and after the loss of any files, as long as there are
`n_data` fragments, a repair makes every file again, and touches no other.  The run that repairs may be of another process, with another word
type, packet size or build, than the one that made the files.  Missing: files of different lengths, or that are not whole words. -/
theorem C53_fnt_partial {c : FntCode} (hc : c.Ok) {data : Array (List Nat)} {T : Nat} (hd : c.Data data T) (hT : T ≤ 2 ^ 64) :
    ∃ frags fprops, c.Encoded data frags fprops ∧ ∀ b db, FntCode.Ok { c with b := b, db := db } → ∀ {pkt R C H}, 0 < pkt →
      FntCode.Reachable { c with b := b, db := db } pkt R C H → ∀ mem junk junk' N calls,
      (R.fecV b).base.n_data = c.k ∧ (R.fecV b).base.n_outputs = c.nOut ∧
      KeepsFiles (Coder.vertical (R.fecV b) mem junk junk') N c.sys data data frags fprops (C, H, calls) := by
  obtain ⟨fr0, pr0, hE0, _⟩ := codes_fnt hc hd hT
  refine ⟨fr0, pr0, hE0, fun b db hc' {pkt R C H} hpkt hr mem junk junk' N calls => ?_⟩
  have hd' : FntCode.Data { c with b := b, db := db } data T := ⟨hd.size, hd.bytes, hd.len⟩
  obtain ⟨fr, pr, hE, h⟩ := codes_fnt hc' hd' hT
  obtain ⟨rfl, rfl⟩ := FntCode.Encoded.same hc hc' rfl rfl rfl rfl hd hE0 hE
  obtain ⟨p, n, _, g, r⟩ := FntCode.exists_root hc'
  exact ⟨(hr.inv hpkt r).k, (hr.inv hpkt r).out, keepsFiles (h _ _ _ _ hpkt hr mem junk junk').1 N (s := (_, _, calls)) hr⟩

private theorem keepsWords {Γ : Type} {E : Fec Γ} {st : Array Nat → Nat → Nat} {mk : Array Nat → Nat → Option Nat} {A : Array Nat → Prop}
    (H : E.HSpec st mk A) (hA : ∀ ids, A ids) (hmk : ∀ a f v, mk a f = some v → v < 2 ^ 32) {data : Array (List Nat)} {w k n T : Nat}
    {sys : Bool} (hw : E.base.word_size = w) (hk : E.base.n_data = k) (hn : E.base.n_outputs = n) (hs : E.base.sys = sys)
    (hd : Gf2nData w k data T) (hT : T ≤ 2 ^ 64) :
    ∃ frags fprops, KeepsWords E w k n sys data T frags fprops ∧ RuinsWords E k n sys data frags fprops := by
  subst hw hk hn hs
  obtain ⟨fr, pr, h⟩ := codes_horizontal H hA hmk hd.size hd.bytes ⟨hd.full, hd.last⟩ hT
  refine ⟨fr, pr, ⟨rfl, rfl, fun mem => ?_, fun mem mem' N s => keepsFiles (h mem mem').1 N trivial⟩,
    ⟨rfl, rfl, fun mem mem' N s => ruinsFiles (h mem mem').2 N trivial⟩⟩
  obtain ⟨s', e, _⟩ := (h (fun _ => mem) (fun _ => mem)).1.enc (0 : Nat) trivial data hd.size (fun i _ => .inl rfl)
    (Array.replicate E.base.n_outputs .empty) (by simp [Coder.horizontal])
  change (E.encode_streams_horizontal data (Array.replicate E.base.n_outputs []) (Array.replicate E.base.n_outputs .empty) mem >>= _) = _ at e
  cases hr : E.encode_streams_horizontal data (Array.replicate E.base.n_outputs []) (Array.replicate E.base.n_outputs .empty) mem with
  | error x => rw [hr] at e; cases e
  | ok r =>
    rw [hr, ok_bind] at e
    injection e with e
    have e1 : r.1.map some = fr.map some := congrArg (fun y => y.1) e
    have e2 : r.2 = pr := congrArg (fun y => y.2.1) e
    rw [← e2, ← (Array.map_inj_right (f := some) (fun x y h => by injection h)).1 e1]

private theorem keeps_gf2n {b w k m : Nat} (h : Gf2nParams b w k m) (type : RsGf2n.MatType) (ht : type = .vandermonde ∨ m ≤ 2) (mem : Nat → Nat)
    (junk : Nat → Nat → Nat) (junk3 : Nat → Nat → Nat → Nat) {data : Array (List Nat)} {T : Nat} (hd : Gf2nData w k data T)
    (hT : T ≤ 2 ^ 64) :
    ∃ E, RsGf2n.mk' b w k m type mem junk junk3 = .ok E ∧ ∃ frags fprops,
      KeepsWords E w k m true data T frags fprops ∧ RuinsWords E k m true data frags fprops := by
  obtain ⟨hws, hw16⟩ := gf2n_wordSize h
  haveI := fact_of (size_of h.field.size)
  obtain ⟨O, B, mat, f, e, i1, v1, hu, _⟩ := RsGf2n.mk'_spec h.field hw16 h.hk h.len type mem junk junk3
  refine ⟨_, e, ?_⟩
  have H := RsGf2n.hspec B.full hws (fun a => by show a < 2 ^ (8 * w) ↔ _; rw [Nat.pow_mul]) h.hk i1 v1
  refine keepsWords H (fun ids hv => hu ids hv ?_) (fun a f v hv => by cases hv) rfl rfl rfl rfl hd hT
  rcases ht with ht | ht
  · exact .inl ht
  · refine .inr (.inr (.inr ?_))
    have hinj : Set.InjOn (gt ids) ((Finset.range k).filter (fun a => k ≤ gt ids a)) := by
      intro a ha a' ha' hE
      exact hv.inj a a' (by simpa using (Finset.mem_filter.1 ha).1) (by simpa using (Finset.mem_filter.1 ha').1) hE
    have hsub : ((Finset.range k).filter (fun a => k ≤ gt ids a)).image (gt ids) ⊆ Finset.Ico k (k + m) := by
      intro x hx
      obtain ⟨a, ha, rfl⟩ := Finset.mem_image.1 hx
      obtain ⟨p1, p2⟩ := Finset.mem_filter.1 ha
      exact Finset.mem_Ico.2 ⟨p2, hv.lt a (Finset.mem_range.1 p1)⟩
    have := Finset.card_le_card hsub
    rw [Finset.card_image_of_injOn hinj, Nat.card_Ico] at this
    omega

private theorem both_vandermonde {b w k m : Nat} (h : Gf2nParams b w k m) (mem : Nat → Nat) (junk : Nat → Nat → Nat)
    (junk3 : Nat → Nat → Nat → Nat) {data : Array (List Nat)} {T : Nat} (hd : Gf2nData w k data T) (hT : T ≤ 2 ^ 64) :
    ∃ E, RsGf2n.mk' b w k m .vandermonde mem junk junk3 = .ok E ∧ ∃ frags fprops,
      KeepsWords E w k m true data T frags fprops ∧ RuinsWords E k m true data frags fprops :=
  keeps_gf2n h .vandermonde (.inl rfl) mem junk junk3 hd hT

private theorem both_cauchy {b w k m : Nat} (h : Gf2nParams b w k m) (hm : m ≤ 2) (mem : Nat → Nat) (junk : Nat → Nat → Nat)
    (junk3 : Nat → Nat → Nat → Nat) {data : Array (List Nat)} {T : Nat} (hd : Gf2nData w k data T) (hT : T ≤ 2 ^ 64) :
    ∃ E, RsGf2n.mk' b w k m .cauchy mem junk junk3 = .ok E ∧ ∃ frags fprops,
      KeepsWords E w k m true data T frags fprops ∧ RuinsWords E k m true data frags fprops :=
  keeps_gf2n h .cauchy (.inr hm) mem junk junk3 hd hT

private theorem both_multiplicative {b w k m : Nat} (h : Gf2nFftParams b w k m) (mem : Nat → Nat) (junk : Nat → Nat → Nat)
    (junk3 : Nat → Nat → Nat → Nat) {data : Array (List Nat)} {T : Nat} (hd : Gf2nData w k data T) (hT : T ≤ 2 ^ 64) :
    ∃ B, RsGf2nFft.mkBase b w k m mem junk junk3 = .ok B ∧ ∃ frags fprops,
      KeepsWords (RsGf2nFft.fec B) w k (k + m) false data T frags fprops ∧ RuinsWords (RsGf2nFft.fec B) k (k + m) false data frags fprops := by
  obtain ⟨K, _, B, S, n, l2, g2, e, hw, G⟩ := RsGf2nFft.mkBase_spec h mem junk junk3
  subst hw
  refine ⟨B, e, keepsWords (FftCode.hspec G (RsGf2nFft.is_fec B) (RsGf2nFft.post_spec B _) (RsGf2nFft.prep_spec B _)) (fun _ => trivial)
    (fun a f v hv => ?_) rfl G.n_data G.n_outputs G.sys hd hT⟩
  unfold FftCode.markOf at hv
  split at hv
  · injection hv with hv; rw [← hv]; decide
  · cases hv

private theorem both_gfp {b db w k m : Nat} (h : GfpParams b db w k m) (mem : Nat → Nat) {data : Array (List Nat)} {T : Nat}
    (hd : Gf2nData w k data T) (hT : T ≤ 2 ^ 64) :
    ∃ c, RsGfpFft.mkBase b db w k m mem = .ok c ∧ ∃ frags fprops,
      KeepsWords (RsGfpFft.fec b c) w k (k + m) false data T frags fprops ∧ RuinsWords (RsGfpFft.fec b c) k (k + m) false data frags fprops := by
  obtain ⟨p, _, B, S, n, l2, g2, e, hw, hp, G⟩ := RsGfpFft.mkBase_spec h mem
  subst hw
  refine ⟨(B, 256 ^ B.word_size), e, keepsWords (FftCode.hspec G (RsGfpFft.is_fec b _)
    (RsGfpFft.post_spec (by positivity) (G.code_len.trans G.n_outputs.symm)) (RsGfpFft.prep_spec hp)) (fun _ => trivial)
    (fun a f v hv => ?_) rfl G.n_data G.n_outputs G.sys hd hT⟩
  unfold FftCode.markOf at hv
  split at hv
  · injection hv with hv; rw [← hv]; decide
  · cases hv

private theorem both_additive {b w k m : Nat} (h : Gf2nFftAddParams b w k m) (h2 : 2 * k < 2 ^ (8 * w)) (mem : Nat → Nat)
    (junk : Nat → Nat → Nat) (junk3 : Nat → Nat → Nat → Nat) {data : Array (List Nat)} {T : Nat} (hd : Gf2nData w k data T)
    (hT : T ≤ 2 ^ 64) :
    ∃ c, RsGf2nFftAdd.mkCode b w k m mem junk junk3 = .ok c ∧ ∃ frags fprops,
      KeepsWords (RsGf2nFftAdd.fec c) w k (k + m) false data T frags fprops ∧ RuinsWords (RsGf2nFftAdd.fec c) k (k + m) false data frags fprops := by
  obtain ⟨K, _, c, S, n, pt, e, G, hl, _⟩ := RsGf2nFftAdd.mkCode_spec h mem junk junk3
  exact ⟨c, e, keepsWords (RsGf2nFftAdd.hspec G (hl h2)) (fun _ => trivial) (fun a f v hv => by cases hv) G.word G.n_data G.n_outputs
    G.sys hd hT⟩

private theorem both_nf4 {b w k m pkt : Nat} {simd : Option (Nat × (Nat → Nat))} (h : Nf4Params b simd w k m) (mem : Nat → Nat)
    {data : Array (List Nat)} {T : Nat} (hd : Gf2nData w k data T) (hT : T ≤ 2 ^ 64) :
    ∃ c, RsNf4.mkCode b simd w k m pkt mem = .ok c ∧ ∃ frags fprops,
      KeepsWords (RsNf4.fec c) w k (k + m) false data T frags fprops ∧ RuinsWords (RsNf4.fec c) k (k + m) false data frags fprops := by
  obtain ⟨c, e, hw, S, n, l2, g, g2, okLen, G⟩ := RsNf4.mkCode_spec (pkt := pkt) h mem
  refine ⟨c, e, keepsWords (RsNf4.hspec G) (fun _ => trivial) (fun a f v hv => ?_) hw G.n_data G.n_outputs G.sys hd hT⟩
  unfold RsNf4.markOf at hv
  split at hv
  · injection hv with hv
    rw [← hv]
    have h1 := (C16_pack_unpack G.H (RsNf4.sym_packed (w / 2) g a f).1).2.1
    refine h1.trans_le (Nat.pow_le_pow_right (by omega) ?_)
    rcases h.hw with h | h | h <;> omega
  · cases hv

/-- C53 for the Vandermonde code.  Here and below the coding files come first: runs of any processes, whatever the word type of their build and
whatever uninitialised memory held, make the same files and repair each other's. -/
theorem C53_vandermonde {b w k m : Nat} (h : Gf2nParams b w k m) {data : Array (List Nat)} {T : Nat} (hd : Gf2nData w k data T)
    (hT : T ≤ 2 ^ 64) :
    ∃ frags fprops, ∀ {b'}, Gf2nParams b' w k m → ∀ (mem : Nat → Nat) (junk : Nat → Nat → Nat) (junk3 : Nat → Nat → Nat → Nat),
      ∃ E, RsGf2n.mk' b' w k m .vandermonde mem junk junk3 = .ok E ∧ KeepsWords E w k m true data T frags fprops := by
  obtain ⟨E0, e0, fr, pr, ⟨_, _, a, _⟩, _⟩ := both_vandermonde h (fun _ => 0) (fun _ _ => 0) (fun _ _ _ => 0) hd hT
  refine ⟨fr, pr, fun {b'} h' mem junk junk3 => ?_⟩
  obtain ⟨E, e, fr', pr', h1, _⟩ := both_vandermonde h' mem junk junk3 hd hT
  have := ((h1.2.2.1 mem).symm.trans (Interop.gf2n_same h' h .vandermonde e e0 hd mem mem)).trans (a mem)
  cases this
  exact ⟨E, e, h1⟩

/-- C53 for the Cauchy code with at most two parity fragments.  Missing: three or more, for which the code cannot always recover
(`C28_three_losses_fail`). -/
theorem C53_cauchy_partial {b w k m : Nat} (h : Gf2nParams b w k m) (hm : m ≤ 2) {data : Array (List Nat)} {T : Nat}
    (hd : Gf2nData w k data T) (hT : T ≤ 2 ^ 64) :
    ∃ frags fprops, ∀ {b'}, Gf2nParams b' w k m → ∀ (mem : Nat → Nat) (junk : Nat → Nat → Nat) (junk3 : Nat → Nat → Nat → Nat),
      ∃ E, RsGf2n.mk' b' w k m .cauchy mem junk junk3 = .ok E ∧ KeepsWords E w k m true data T frags fprops := by
  obtain ⟨E0, e0, fr, pr, ⟨_, _, a, _⟩, _⟩ := both_cauchy h hm (fun _ => 0) (fun _ _ => 0) (fun _ _ _ => 0) hd hT
  refine ⟨fr, pr, fun {b'} h' mem junk junk3 => ?_⟩
  obtain ⟨E, e, fr', pr', h1, _⟩ := both_cauchy h' hm mem junk junk3 hd hT
  have := ((h1.2.2.1 mem).symm.trans (Interop.gf2n_same h' h .cauchy e e0 hd mem mem)).trans (a mem)
  cases this
  exact ⟨E, e, h1⟩

/-- C53 for the code on the multiplicative FFT over GF(2^n). -/
theorem C53_multiplicative {b w k m : Nat} (h : Gf2nFftParams b w k m) {data : Array (List Nat)} {T : Nat} (hd : Gf2nData w k data T)
    (hT : T ≤ 2 ^ 64) :
    ∃ frags fprops, ∀ {b'}, Gf2nFftParams b' w k m → ∀ (mem : Nat → Nat) (junk : Nat → Nat → Nat) (junk3 : Nat → Nat → Nat → Nat),
      ∃ B, RsGf2nFft.mkBase b' w k m mem junk junk3 = .ok B ∧ KeepsWords (RsGf2nFft.fec B) w k (k + m) false data T frags fprops := by
  obtain ⟨E0, e0, fr, pr, ⟨_, _, a, _⟩, _⟩ := both_multiplicative h (fun _ => 0) (fun _ _ => 0) (fun _ _ _ => 0) hd hT
  refine ⟨fr, pr, fun {b'} h' mem junk junk3 => ?_⟩
  obtain ⟨E, e, fr', pr', h1, _⟩ := both_multiplicative h' mem junk junk3 hd hT
  have := ((h1.2.2.1 mem).symm.trans (Interop.fft_same h' h e e0 hd mem mem)).trans (a mem)
  cases this
  exact ⟨E, e, h1⟩

/-- C53 for the code on FFTs over GF(p).  Missing: the parameters `C31_recovery_partial` leaves out. -/
theorem C53_gfp_partial {b db w k m : Nat} (h : GfpParams b db w k m) {data : Array (List Nat)} {T : Nat} (hd : Gf2nData w k data T)
    (hT : T ≤ 2 ^ 64) :
    ∃ frags fprops, ∀ {b' db'}, GfpParams b' db' w k m → ∀ mem : Nat → Nat,
      ∃ c, RsGfpFft.mkBase b' db' w k m mem = .ok c ∧ KeepsWords (RsGfpFft.fec b' c) w k (k + m) false data T frags fprops := by
  obtain ⟨E0, e0, fr, pr, ⟨_, _, a, _⟩, _⟩ := both_gfp h (fun _ => 0) hd hT
  refine ⟨fr, pr, fun {b' db'} h' mem => ?_⟩
  obtain ⟨E, e, fr', pr', h1, _⟩ := both_gfp h' mem hd hT
  have := ((h1.2.2.1 mem).symm.trans (Interop.gfp_same h' h e e0 hd mem mem)).trans (a mem)
  cases this
  exact ⟨E, e, h1⟩

/-- C53 for the code on the additive FFT.  Missing: the parameters for which decoding fails (`C30_additive_decoding_asserts`). -/
theorem C53_additive_partial {b w k m : Nat} (h : Gf2nFftAddParams b w k m) (h2 : 2 * k < 2 ^ (8 * w)) {data : Array (List Nat)} {T : Nat}
    (hd : Gf2nData w k data T) (hT : T ≤ 2 ^ 64) :
    ∃ frags fprops, ∀ {b'}, Gf2nFftAddParams b' w k m → ∀ (mem : Nat → Nat) (junk : Nat → Nat → Nat) (junk3 : Nat → Nat → Nat → Nat),
      ∃ c, RsGf2nFftAdd.mkCode b' w k m mem junk junk3 = .ok c ∧ KeepsWords (RsGf2nFftAdd.fec c) w k (k + m) false data T frags fprops := by
  obtain ⟨E0, e0, fr, pr, ⟨_, _, a, _⟩, _⟩ := both_additive h h2 (fun _ => 0) (fun _ _ => 0) (fun _ _ _ => 0) hd hT
  refine ⟨fr, pr, fun {b'} h' mem junk junk3 => ?_⟩
  obtain ⟨E, e, fr', pr', h1, _⟩ := both_additive h' h2 mem junk junk3 hd hT
  have := ((h1.2.2.1 mem).symm.trans (Interop.add_same h' h h2 e e0 hd mem mem)).trans (a mem)
  cases this
  exact ⟨E, e, h1⟩

/-- C53 for the packed Fermat code. -/
theorem C53_nf4 {b w k m : Nat} {simd : Option (Nat × (Nat → Nat))} (h : Nf4Params b simd w k m) {data : Array (List Nat)} {T : Nat}
    (hd : Gf2nData w k data T) (hT : T ≤ 2 ^ 64) :
    ∃ frags fprops, ∀ {b' simd'}, Nf4Params b' simd' w k m → ∀ (pkt : Nat) (mem : Nat → Nat),
      ∃ c, RsNf4.mkCode b' simd' w k m pkt mem = .ok c ∧ KeepsWords (RsNf4.fec c) w k (k + m) false data T frags fprops := by
  obtain ⟨E0, e0, fr, pr, ⟨_, _, a, _⟩, _⟩ := both_nf4 (pkt := 0) h (fun _ => 0) hd hT
  refine ⟨fr, pr, fun {b' simd'} h' pkt mem => ?_⟩
  obtain ⟨E, e, fr', pr', h1, _⟩ := both_nf4 (pkt := pkt) h' mem hd hT
  have := ((h1.2.2.1 mem).symm.trans (Interop.nf4_same h' h e e0 hd mem mem)).trans (a mem)
  cases this
  exact ⟨E, e, h1⟩

/-- what is made again of a file of whole words is the file -/
theorem C53_whole_words {w k T : Nat} {data : Array (List Nat)} (hs : data.size = k) (h : ∀ i, i < k → (gt data i).length = T * w) :
    data.map (fun f => f.take (T * w)) = data := by
  refine gt_ext (by simp) (fun i hi => ?_)
  have hi' : i < data.size := by simpa using hi
  rw [gt_map hi', List.take_of_length_le (by rw [h i (by omega)])]

/-- C53 fails for a file that has bytes after the words that are coded: it is shorter after a repair that ends well. -/
theorem C53_extra_bytes_are_lost {Γ : Type} {E : Fec Γ} {w k n T : Nat} {sys : Bool} {data : Array (List Nat)} (hs : data.size = k)
    {frags : Array (List Nat)} {fprops : Array Properties} (h : KeepsWords E w k n sys data T frags fprops) {i : Nat} (hi : i < k)
    (hl : T * w < (gt data i).length) : ∀ mem mem' N s fs0 fs, DataFiles N data fs0 → CodingFiles N frags fprops fs0 → Lost N k n fs0 fs →
      Enough N sys k n fs → fs (N.d i) = none →
      ∃ fs' s' f, run (Coder.horizontal E mem mem') N true s fs = (fs', .done s') ∧ fs' (N.d i) = some f ∧ f.length < (gt data i).length := by
  obtain ⟨h1, h2, _, h3⟩ := h
  subst h1 h2
  intro mem mem' N s fs0 fs a1 a2 a3 a4 a5
  obtain ⟨fs', s', e, _, q, _⟩ := (h3 mem mem' N s).repair fs0 fs a1 a2 a3 a4
  refine ⟨fs', s', _, e, q i hi, ?_⟩
  rw [if_pos a5, gt_map (by omega), List.length_take]
  omega

/-! ## C54: runs that fail or are interrupted -/

/-- C54: a run that makes the coding files may be interrupted and repeated: whatever the interrupted run left in the coding files and
those of their properties, they are made from the data files, which it has not changed. -/
theorem C54_creation_can_be_repeated_partial {F : Coder} {N : Names} {sys : Bool} {data back frags : Array (List Nat)} {fprops : Array Properties}
    {s : F.σ} (h : KeepsFiles F N sys data back frags fprops s) {fs fs1 : Fs} (hd : DataFiles N data fs)
    (hcrash : ∀ x, ¬ IsCoding N F.n_outputs x → fs1 x = fs x) :
    ∃ fs' s', run F N false s fs1 = (fs', .done s') ∧ DataFiles N data fs' ∧ CodingFiles N frags fprops fs' ∧
      ∀ x, ¬ IsCoding N F.n_outputs x → fs' x = fs x := by
  have hn : ∀ i, ¬ IsCoding N F.n_outputs (N.d i) := fun i ⟨f, _, e⟩ => e.elim Names.d_ne_c Names.d_ne_p
  obtain ⟨fs', s', e, q1, q2⟩ := h.create fs1 (fun i hi => by rw [hcrash _ (hn i)]; exact hd i hi)
  refine ⟨fs', s', e, fun i hi => ?_, q1, fun x hx => by rw [q2 x hx, hcrash x hx]⟩
  rw [q2 _ (hn i), hcrash _ (hn i)]; exact hd i hi

/-- C54: whatever the files and the code, making the coding files changes no other file, and without all data files it changes none and
ends with a failure. -/
theorem C54_creation_keeps_other_files_partial (F : Coder) (N : Names) (s : F.σ) (fs : Fs) :
    (∀ x, ¬ IsCoding N F.n_outputs x → (run F N false s fs).1 x = fs x) ∧
    ((∃ i, i < F.n_data ∧ fs (N.d i) = none) → run F N false s fs = (fs, .exit)) :=
  ⟨fun _ hx => create_other hx, create_exit⟩

/-- C54 is false: a repair that is interrupted after it has opened the files it wants to restore, and before it has written to them, leaves
them empty, and a second repair takes them for data: whatever the code and the files, they stay empty. -/
theorem C54_interrupted_repair_loses_files (F : Coder) (N : Names) (s : F.σ) (fs : Fs) {i : Nat} (hi : i < F.n_data) (hlost : fs (N.d i) = none) :
    (run F N true s (openData N F.n_data fs).1).1 (N.d i) = some [] := by
  rw [run_true_present (fun j hj => by rw [(openData_at j hj).1]; rfl) i, (openData_at i hi).1, hlost]
  rfl

/-- C54 is false: with files of a packet or more, and fewer fragments than `n_data`, a repair with the Fermat number code reports no
failure, leaves the missing data files empty and empties the coding files that were left. -/
theorem C54_failed_repair_ruins_fnt {c : FntCode} (hc : c.Ok) {data : Array (List Nat)} {T : Nat} (hd : c.Data data T) (hT : T ≤ 2 ^ 64)
    {frags : Array (List Nat)} {fprops : Array Properties} (he : c.Encoded data frags fprops) {pkt : Nat} (hpkt : 0 < pkt) (hlen : pkt ≤ T)
    {R : RsFntObj} {C : CtxB} {H : Heap} (hr : c.Reachable pkt R C H) (mem : Nat → Nat → Nat) (junk junk' : Nat → Nat → Nat → Nat) (N : Names)
    (calls : Nat) :
    (R.fecV c.b).base.n_data = c.k ∧ (R.fecV c.b).base.n_outputs = c.nOut ∧
      RuinsFiles (Coder.vertical (R.fecV c.b) mem junk junk') N c.sys data frags fprops (C, H, calls) := by
  obtain ⟨fr, pr, hE, h⟩ := codes_fnt hc hd hT
  obtain ⟨p, n, _, g, r⟩ := FntCode.exists_root hc
  obtain ⟨fr', pr', _, _, _, hu, _⟩ := C36_streams_unique_partial hc hd
  obtain ⟨rfl, rfl⟩ := (hu _ _).1 hE
  obtain ⟨rfl, rfl⟩ := (hu _ _).1 he
  exact ⟨(hr.inv hpkt r).k, (hr.inv hpkt r).out, ruinsFiles ((h _ _ _ _ hpkt hr mem junk junk').2 hlen) N (s := (_, _, calls)) hr⟩

/-- C54 is false: with fewer fragments than `n_data`, a repair with the Vandermonde code reports no failure, leaves the missing data
files empty and empties the coding files that were left. -/
theorem C54_failed_repair_ruins_vandermonde {b w k m : Nat} (h : Gf2nParams b w k m) (mem : Nat → Nat) (junk : Nat → Nat → Nat)
    (junk3 : Nat → Nat → Nat → Nat) {data : Array (List Nat)} {T : Nat} (hd : Gf2nData w k data T) (hT : T ≤ 2 ^ 64) :
    ∃ E, RsGf2n.mk' b w k m .vandermonde mem junk junk3 = .ok E ∧ ∃ frags fprops,
      KeepsWords E w k m true data T frags fprops ∧ RuinsWords E k m true data frags fprops :=
  both_vandermonde h mem junk junk3 hd hT

/-- C54 is false: with fewer fragments than `n_data`, a repair with the Cauchy code reports no failure, leaves the missing data
files empty and empties the coding files that were left. -/
theorem C54_failed_repair_ruins_cauchy {b w k m : Nat} (h : Gf2nParams b w k m) (hm : m ≤ 2) (mem : Nat → Nat) (junk : Nat → Nat → Nat)
    (junk3 : Nat → Nat → Nat → Nat) {data : Array (List Nat)} {T : Nat} (hd : Gf2nData w k data T) (hT : T ≤ 2 ^ 64) :
    ∃ E, RsGf2n.mk' b w k m .cauchy mem junk junk3 = .ok E ∧ ∃ frags fprops,
      KeepsWords E w k m true data T frags fprops ∧ RuinsWords E k m true data frags fprops :=
  both_cauchy h hm mem junk junk3 hd hT

/-- C54 is false: with fewer fragments than `n_data`, a repair with the code on the multiplicative FFT reports no failure, leaves the missing data
files empty and empties the coding files that were left. -/
theorem C54_failed_repair_ruins_multiplicative {b w k m : Nat} (h : Gf2nFftParams b w k m) (mem : Nat → Nat) (junk : Nat → Nat → Nat)
    (junk3 : Nat → Nat → Nat → Nat) {data : Array (List Nat)} {T : Nat} (hd : Gf2nData w k data T) (hT : T ≤ 2 ^ 64) :
    ∃ B, RsGf2nFft.mkBase b w k m mem junk junk3 = .ok B ∧ ∃ frags fprops,
      KeepsWords (RsGf2nFft.fec B) w k (k + m) false data T frags fprops ∧ RuinsWords (RsGf2nFft.fec B) k (k + m) false data frags fprops :=
  both_multiplicative h mem junk junk3 hd hT

/-- C54 is false: with fewer fragments than `n_data`, a repair with the code on FFTs over GF(p) reports no failure, leaves the missing data
files empty and empties the coding files that were left. -/
theorem C54_failed_repair_ruins_gfp {b db w k m : Nat} (h : GfpParams b db w k m) (mem : Nat → Nat) {data : Array (List Nat)} {T : Nat}
    (hd : Gf2nData w k data T) (hT : T ≤ 2 ^ 64) :
    ∃ c, RsGfpFft.mkBase b db w k m mem = .ok c ∧ ∃ frags fprops,
      KeepsWords (RsGfpFft.fec b c) w k (k + m) false data T frags fprops ∧ RuinsWords (RsGfpFft.fec b c) k (k + m) false data frags fprops :=
  both_gfp h mem hd hT

/-- C54 is false: with fewer fragments than `n_data`, a repair with the code on the additive FFT reports no failure, leaves the missing data
files empty and empties the coding files that were left. -/
theorem C54_failed_repair_ruins_additive {b w k m : Nat} (h : Gf2nFftAddParams b w k m) (h2 : 2 * k < 2 ^ (8 * w)) (mem : Nat → Nat)
    (junk : Nat → Nat → Nat) (junk3 : Nat → Nat → Nat → Nat) {data : Array (List Nat)} {T : Nat} (hd : Gf2nData w k data T)
    (hT : T ≤ 2 ^ 64) :
    ∃ c, RsGf2nFftAdd.mkCode b w k m mem junk junk3 = .ok c ∧ ∃ frags fprops,
      KeepsWords (RsGf2nFftAdd.fec c) w k (k + m) false data T frags fprops ∧ RuinsWords (RsGf2nFftAdd.fec c) k (k + m) false data frags fprops :=
  both_additive h h2 mem junk junk3 hd hT

/-- C54 is false: with fewer fragments than `n_data`, a repair with the packed Fermat code reports no failure, leaves the missing data
files empty and empties the coding files that were left. -/
theorem C54_failed_repair_ruins_nf4 {b w k m pkt : Nat} {simd : Option (Nat × (Nat → Nat))} (h : Nf4Params b simd w k m) (mem : Nat → Nat)
    {data : Array (List Nat)} {T : Nat} (hd : Gf2nData w k data T) (hT : T ≤ 2 ^ 64) :
    ∃ c, RsNf4.mkCode b simd w k m pkt mem = .ok c ∧ ∃ frags fprops,
      KeepsWords (RsNf4.fec c) w k (k + m) false data T frags fprops ∧ RuinsWords (RsNf4.fec c) k (k + m) false data frags fprops :=
  both_nf4 h mem hd hT

/-! ## The hypotheses can be met -/

/-- for any contents and names there are files as C53 and C54 suppose, and all may lose their first data file -/
theorem files_exist (N : Names) (sys : Bool) (data frags : Array (List Nat)) (fprops : Array Properties) (hk : 0 < data.size)
    (hn : data.size ≤ frags.size) :
    ∃ fs0 fs, DataFiles N data fs0 ∧ CodingFiles N frags fprops fs0 ∧ Lost N data.size frags.size fs0 fs ∧ fs (N.d 0) = none ∧
      Enough N sys data.size frags.size fs := by
  set d0 := closeData N data.size (Array.replicate data.size true) (data.map some) (fun _ => none) with hd0
  set fs0 := closeCoding N frags.size (frags.map some) fprops d0 with hfs0
  have nd : ∀ i, ¬ IsCoding N frags.size (N.d i) := fun i ⟨f, _, e⟩ => e.elim Names.d_ne_c Names.d_ne_p
  have hc : CodingFiles N frags fprops fs0 := closeCoding_at (frags := gt frags) (fun f hf => by rw [gt_map hf])
  refine ⟨fs0, fun x => if x = N.d 0 then none else fs0 x, fun i hi => ?_, hc, ⟨fun i hi => ?_, fun f hf => ?_, fun f hf => ?_⟩, by simp, ?_⟩
  · rw [hfs0, closeCoding_other (nd i)]
    exact closeData_at hi (gt_replicate hi) (by rw [gt_map hi])
  · split
    · exact .inl rfl
    · exact .inr rfl
  · right
    rw [if_neg (Ne.symm Names.d_ne_c), if_neg (Ne.symm Names.d_ne_p)]
    exact ⟨rfl, rfl⟩
  · right
    rw [if_neg (Ne.symm Names.d_ne_p)]
  · right
    have : codingLeft N frags.size (fun x => if x = N.d 0 then none else fs0 x) = frags.size := by
      unfold codingLeft
      rw [List.countP_eq_length.2 (fun f hf => ?_), List.length_range]
      simp only
      rw [if_neg (Ne.symm Names.d_ne_c), (hc f (List.mem_range.1 hf)).1]
      rfl
    rw [this]
    exact hn.trans (Nat.le_add_left _ _)

example : (names ['x'] 12 300).d 7 = ['x', '.', 'd', '0', '7'] ∧ (names ['x'] 12 300).p 41 = ['x', '.', 'c', '0', '4', '1', '.', 'p', 'r', 'o', 'p', 's'] := by
  decide +kernel

end Quad.Props
