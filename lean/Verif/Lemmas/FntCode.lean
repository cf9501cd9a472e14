import Verif.Spec.Fnt
import Verif.Lemmas.SimdBuild
import Verif.Lemmas.FecUb
import Verif.Lemmas.FecAny
import Verif.Lemmas.Session
import Verif.Props.Ring

/-!
Every code object in any history meets `FecV.VSpec` with the symbols of
`Spec.symbol`.
-/

namespace Quad
open Finset Polynomial Spec

/-! ### counting missing fragments -/

theorem count_not (l : List Bool) : (l.map (fun b => !b)).countP id = l.count false := by
  rw [List.countP_map, List.count]
  apply List.countP_congr
  intro x _
  cases x <;> simp

theorem present_not_all {missing : Array Bool} {k : Nat} (hk : k ≤ missing.size) :
    (present (missing.map (fun b => !b)) k).length = k ↔ ∀ i, i < k → gt missing i = false := by
  unfold present
  constructor
  · intro hh i hi
    have h1 := List.length_filter_eq_length_iff.mp (hh.trans (List.length_range (n := k)).symm) i (List.mem_range.mpr hi)
    rw [gt_map (by omega)] at h1
    simpa using h1
  · intro hh
    rw [List.filter_eq_self.mpr, List.length_range]
    intro i hi
    rw [gt_map (by have := List.mem_range.mp hi; omega), hh i (List.mem_range.mp hi)]
    rfl

theorem present_not_split {missing : Array Bool} {k m : Nat} (hms : missing.size = k + m) :
    (present (missing.map (fun b => !b)) k).length +
      (present ((missing.map (fun b => !b)).extract k (missing.map (fun b => !b)).size) m).length = missing.toList.count false := by
  have h1 := present_eq_countP ((missing.map (fun b => !b)).extract 0 k)
  have h2 := present_eq_countP ((missing.map (fun b => !b)).extract k (missing.map (fun b => !b)).size)
  have e1 : ((missing.map (fun b => !b)).extract 0 k).size = k := by simp; omega
  have e2 : ((missing.map (fun b => !b)).extract k (missing.map (fun b => !b)).size).size = m := by simp; omega
  rw [e1] at h1
  rw [e2] at h2
  have e3 : present (missing.map (fun b => !b)) k = present ((missing.map (fun b => !b)).extract 0 k) k := by
    unfold present
    apply List.filter_congr
    intro i hi
    have hi' := List.mem_range.mp hi
    rw [gt_extract (by omega) (by simp; omega), Nat.zero_add]
  rw [e3, h1, h2, ← count_not, ← List.countP_append]
  congr 1
  rw [← Array.toList_append, ← Array.toList_map]
  congr 1
  simp

theorem present_not_count {missing : Array Bool} {m : Nat} (hms : missing.size = m) :
    (present (missing.map (fun b => !b)) m).length = missing.toList.count false := by
  have h1 := present_eq_countP (missing.map (fun b => !b))
  rw [Array.size_map, hms] at h1
  rw [h1, ← count_not, Array.toList_map]

theorem wordAt_ofDigits (w : Nat) (s : List Nat) (t : Nat) : wordAt w s t = word w s t := by
  have : ∀ l : List Nat, leVal l = Nat.ofDigits 256 l := by
    intro l
    induction l with
    | nil => rfl
    | cons x l ih => rw [Nat.ofDigits_cons, ← ih]; rfl
  exact this _

namespace Spec.FntCode

/-- what is stored of output `f` -/
noncomputable def stored {p : Nat} [Fact p.Prime] (g : ZMod p) (w : Nat) (sys : Bool) (k : Nat) (a : Array Nat) (f : Nat) : Nat :=
  if symbol g sys k a f = 2 ^ (8 * w) then 0 else symbol g sys k a f

/-- its mark -/
noncomputable def mark {p : Nat} [Fact p.Prime] (g : ZMod p) (w : Nat) (sys : Bool) (k : Nat) (a : Array Nat) (f : Nat) : Option Nat :=
  if symbol g sys k a f = 2 ^ (8 * w) then some OOR_MARK else none

theorem osym_eq {p : Nat} [Fact p.Prime] {F : GF} {S : F.Sim (ZMod p)} (hφ : ∀ c, S.φ c = (c : ZMod p)) (g : ZMod p) (sys : Bool) (k : Nat)
    (a : Array Nat) (f : Nat) : RsFnt.osym S g sys k a f = symbol g sys k a f := by
  unfold RsFnt.osym RsFnt.csym RsFnt.cpoly symbol rowPoly polyOf
  simp only [hφ]

theorem prime {c : FntCode} (h : c.Ok) : (2 ^ (8 * c.w) + 1).Prime := by
  rcases h.hw with h | h <;> rw [h]
  · exact Props.prime257
  · exact Props.prime65537

/-- the object `R` is a code object of `c` with packet size `pkt`, in good condition -/
structure Inv (c : FntCode) (p : Nat) [Fact p.Prime] (g : ZMod p) (pkt : Nat) (R : RsFntObj) (enc : CtxB) (H : Heap) : Prop where
  sys : R.code.base.sys = c.sys
  w : R.code.base.word_size = c.w
  pkt : R.code.base.pkt_size = pkt
  k : R.code.base.n_data = c.k
  out : R.code.base.n_outputs = c.nOut
  ex : ∃ b0 Live, (R.fecV c.b).VSpec (stored g c.w c.sys c.k) (mark g c.w c.sys c.k) b0 Live ∧
    (R.fecV c.b).ASpec (RsFntObj.ival g c.sys c.k) b0 Live ∧ Live enc H

/-- objects built by the constructor, and the code they implement word by word -/
structure Root (c : FntCode) (p n : Nat) [Fact p.Prime] (g : ZMod p) : Prop where
  ne : p = 2 ^ (8 * c.w) + 1
  root : IsPrimitiveRoot g n
  len : c.k + c.m ≤ n
  lt : n < 2 * (c.k + c.m)
  new : ∀ (simd : Option Nat), c.Builds simd → ∀ (pkt : Nat) (mem : Nat → Nat) (junk : Nat → Nat → Nat) (H : Heap), ∃ H' R,
    RsFntObj.mk' (.of simd c.b) c.b c.db c.sys c.w c.k c.m pkt mem junk H = .ok (H', R) ∧
    RsFnt.mkBase c.b c.db c.sys c.w c.k c.m pkt mem = .ok R.code.base ∧ Inv c p g pkt R R.enc_context H'
  horiz : c.sys = false → ∀ (pkt : Nat) (mem : Nat → Nat), ∃ B, RsFnt.mkBase c.b c.db c.sys c.w c.k c.m pkt mem = .ok B ∧
    B.word_size = c.w ∧ B.n_data = c.k ∧ B.n_outputs = c.nOut ∧
    (RsFnt.fec B).HSpec (stored g c.w c.sys c.k) (mark g c.w c.sys c.k)
  gen : ∃ (mem : Nat → Nat) (B : FecBase), RsFnt.mkBase c.b c.db c.sys c.w c.k c.m 0 mem = .ok B ∧ ((gt B.r_powers 1 : Nat) : ZMod p) = g

theorem exists_root {c : FntCode} (h : c.Ok) : ∃ (p n : Nat) (_ : Fact p.Prime) (g : ZMod p), c.Root p n g := by
  have : Fact (2 ^ (8 * c.w) + 1).Prime := ⟨prime h⟩
  have h2 : 2 ^ (8 * c.w) + 1 ≠ 2 := by
    rcases h.hw with h | h <;> rw [h] <;> decide
  have hw4 : c.w < 4 := by rcases h.hw with h | h <;> omega
  have hfit : (RingModN.mk c.b c.db true (2 ^ (8 * c.w) + 1)).Fits := by
    rcases h.type with ⟨hb, hd⟩ | ⟨hb, hd⟩ | ⟨hb, hd, hw'⟩ <;> rcases h.hw with hw | hw <;> rw [hb, hd, hw] <;>
      first | exact ⟨by decide, by decide, by decide⟩ | omega
  have hb2 : c.b % 2 = 0 := by rcases h.type with ⟨hb, _⟩ | ⟨hb, _⟩ | ⟨hb, _⟩ <;> rw [hb]
  have hws : WordSize c.w := by rcases h.hw with h | h <;> simp [WordSize, h]
  obtain ⟨g, hall⟩ := RsFntObj.mk'_spec (p := 2 ^ (8 * c.w) + 1) (b := c.b) (db := c.db) hw4 rfl h2 hfit hb2 h.hk h.hm h.len h.two
  have h0 : ∃ n, IsPrimitiveRoot g n ∧ c.k + c.m ≤ n ∧ n < 2 * (c.k + c.m) := by
    obtain ⟨H', R, _, _, _, _, _, _, S, n, len, g2, o1, o2, o3, G, _⟩ := hall .scalar Build.scalar_good c.sys 0 (fun _ => 0) (fun _ _ => 0) #[]
    exact ⟨n, (G.good.env.fft ()).root, G.good.le, G.good.lt⟩
  obtain ⟨n, hr, hn, hn'⟩ := h0
  refine ⟨2 ^ (8 * c.w) + 1, n, this, g, rfl, hr, hn, hn', ?_, ?_, ?_⟩
  · intro simd hsimd pkt mem junk H
    obtain ⟨H', R, e, e1, e2, e3, e4, _, S, n', len, g2, o1, o2, o3, G, L⟩ := hall _ (Build.of_good rfl h.hw hsimd) c.sys pkt mem junk H
    refine ⟨H', R, e, e4, e1, e2, e3, G.good.n_data, ?_, H'.size, _, ?_, ?_, L⟩
    · rw [G.good.n_outputs, e1]; rfl
    · have := RsFntObj.vspec G (b0 := H'.size) (by rw [e2]; exact hws) (b := c.b) (by
        rw [e2]; rcases h.type with ⟨hb, _⟩ | ⟨hb, _⟩ | ⟨hb, _, _⟩ <;> rcases h.hw with hw | hw <;> omega)
      have es : RsFnt.ostored S g (8 * c.w) R.code.base.sys c.k = stored g c.w c.sys c.k := by
        funext a f
        unfold RsFnt.ostored stored
        rw [osym_eq G.good.φ, e1]
      have em : RsFnt.omark S g (8 * c.w) R.code.base.sys c.k = mark g c.w c.sys c.k := by
        funext a f
        unfold RsFnt.omark mark
        rw [osym_eq G.good.φ, e1]
      rw [es, em] at this
      exact this
    · have := RsFntObj.aspec G (b0 := H'.size) (b := c.b)
      rw [e1] at this
      exact this
  · intro hs pkt mem
    obtain ⟨H', R, e, e1, e2, e3, e4, _, S, n', len, g2, o1, o2, o3, G, L⟩ := hall .scalar Build.scalar_good c.sys pkt mem (fun _ _ => 0) #[]
    refine ⟨R.code.base, e4, e2, G.good.n_data, by rw [G.good.n_outputs, e1]; rfl, ?_⟩
    have := RsFnt.hspec G.good (by rw [e1, hs]) (by rw [e2]; exact hws)
    have hsy : ∀ a f, RsFnt.sym S g a f = symbol g c.sys c.k a f := by
      intro a f
      rw [← osym_eq G.good.φ, hs]
      rfl
    have es : RsFnt.stored S g (8 * c.w) = stored g c.w c.sys c.k := by
      funext a f
      unfold RsFnt.stored stored
      rw [hsy]
    have em : RsFnt.markOf S g (8 * c.w) = mark g c.w c.sys c.k := by
      funext a f
      unfold RsFnt.markOf mark
      rw [hsy]
    rw [es, em] at this
    exact this
  · obtain ⟨H', R, e, e1, e2, e3, e4, _, S, n', len, g2, o1, o2, o3, G, L⟩ := hall .scalar Build.scalar_good c.sys 0 (fun _ => 0) (fun _ _ => 0) #[]
    refine ⟨fun _ => 0, R.code.base, e4, ?_⟩
    have h1 := G.good.le
    have h2 := h.hk
    have h3 := h.hm
    rw [(G.good.rp 1 (by omega)).2, pow_one]

section
variable {c : FntCode} {p n : Nat} [Fact p.Prime] {g : ZMod p}

/-- row `t` of the data -/
noncomputable abbrev row (c : FntCode) (data : Array (List Nat)) (t : Nat) : Array Nat := rowAt c.w c.k (gt data) t

/-- output streams and properties -/
structure IsCode (c : FntCode) (p : Nat) [Fact p.Prime] (g : ZMod p) (data : Array (List Nat)) (T : Nat) (frags : Array (List Nat))
    (props : Array Properties) : Prop where
  fsize : frags.size = c.nOut
  psize : props.size = c.nOut
  frag : ∀ f, f < c.nOut → gt frags f = flat c.w (fun t => stored g c.w c.sys c.k (row c data t) f) T
  prop : ∀ f, f < c.nOut → gt props f = ⟨marksOf (fun t => mark g c.w c.sys c.k (row c data t) f) T⟩

theorem New.inv {pkt : Nat} {R : RsFntObj} {H : Heap} (h : c.New pkt R H) (r : c.Root p n g) : Inv c p g pkt R R.enc_context H := by
  obtain ⟨simd, hsimd, mem, junk, H0, e⟩ := h
  obtain ⟨H', R', e', _, i⟩ := r.new simd hsimd pkt mem junk H0
  rw [e] at e'; cases e'; exact i

theorem Inv.encode_streams {pkt : Nat} {R : RsFntObj} {enc : CtxB} {H : Heap} (h : Inv c p g pkt R enc H) (hpkt : 0 < pkt)
    {data outs : Array (List Nat)} {props : Array Properties} {T : Nat} (hd : c.Data data T) (junk : Nat → Nat → Nat)
    (h2 : outs.size = c.nOut) (h3 : props.size = c.nOut) :
    ∃ outs' props' enc' H', (R.fecV c.b).encode_streams_vertical enc data outs props junk H = .ok (outs', props', enc', H') ∧
      Inv c p g pkt R enc' H' ∧ outs'.size = c.nOut ∧ props'.size = c.nOut ∧ ∀ f, f < c.nOut →
      gt outs' f = some (gt outs f ++ flat c.w (fun t => stored g c.w c.sys c.k (row c data t) f) T) ∧
      gt props' f = ⟨marksOf (fun t => mark g c.w c.sys c.k (row c data t) f) T⟩ := by
  obtain ⟨b0, Live, hV, hA, hL⟩ := h.ex
  have hk : (R.fecV c.b).base.n_data = c.k := h.k
  have hw : (R.fecV c.b).base.word_size = c.w := h.w
  have ho : (R.fecV c.b).base.n_outputs = c.nOut := h.out
  obtain ⟨o, p', e', H', e, q1, q2, q3, q4⟩ := FecV.encode_streams_vertical_spec hV (by show 0 < R.code.base.pkt_size; rw [h.pkt]; exact hpkt) hL
    (data := data) (outs := outs) (props := props) (T := T) junk (by rw [hk]; exact hd.size) (by rw [ho]; exact h2) (by rw [ho]; exact h3)
    (by rw [hk]; exact hd.bytes) (by rw [hk, hw]; exact hd.len)
  rw [hk, hw, ho] at q4
  exact ⟨o, p', e', H', e, ⟨h.sys, h.w, h.pkt, h.k, h.out, b0, Live, hV, hA, q1⟩, q2.trans ho, q3.trans ho, q4⟩

theorem words_bounds {c : FntCode} (h : 0 < c.w) (L : Nat) : L ≤ c.words L * c.w ∧ c.words L * c.w < L + c.w := by
  unfold words
  have h1 := Nat.div_add_mod (L + c.w - 1) c.w
  have h2 := Nat.mod_lt (L + c.w - 1) h
  rw [Nat.mul_comm] at h1
  omega

theorem Inv.encode_bytes {pkt : Nat} {R : RsFntObj} {enc : CtxB} {H : Heap} (h : Inv c p g pkt R enc H) (hpkt : 0 < pkt)
    {data outs : Array (List Nat)} {props : Array Properties} {L : Nat} (hd : c.Bytes data L) (junk : Nat → Nat → Nat)
    (h2 : outs.size = c.nOut) (h3 : props.size = c.nOut) :
    ∃ outs' props' enc' H', (R.fecV c.b).encode_streams_vertical enc data outs props junk H = .ok (outs', props', enc', H') ∧
      Inv c p g pkt R enc' H' ∧ outs'.size = c.nOut ∧ props'.size = c.nOut ∧ ∀ f, f < c.nOut →
      gt outs' f = some (gt outs f ++ (flat c.w (fun t => stored g c.w c.sys c.k (row c data t) f) (c.words L)).take L) ∧
      gt props' f = ⟨marksOf (fun t => mark g c.w c.sys c.k (row c data t) f) (c.words L)⟩ := by
  obtain ⟨b0, Live, hV, hA, hL⟩ := h.ex
  have hk : (R.fecV c.b).base.n_data = c.k := h.k
  have hw : (R.fecV c.b).base.word_size = c.w := h.w
  have ho : (R.fecV c.b).base.n_outputs = c.nOut := h.out
  have hwp : 0 < c.w := by rw [← hw]; exact hV.w.pos
  obtain ⟨o, p', e', H', e, q1, q2, q3, q4⟩ := FecV.encode_streams_vertical_bytes hV (by show 0 < R.code.base.pkt_size; rw [h.pkt]; exact hpkt) hL
    (data := data) (outs := outs) (props := props) (T := c.words L) (L := L) junk (by rw [hk]; exact hd.size) (by rw [ho]; exact h2)
    (by rw [ho]; exact h3) (by rw [hk]; exact hd.bytes) (by rw [hk]; exact hd.len) (by rw [hw]; exact (words_bounds hwp L).1)
    (by rw [hw]; exact (words_bounds hwp L).2)
  rw [hk, hw, ho] at q4
  exact ⟨o, p', e', H', e, ⟨h.sys, h.w, h.pkt, h.k, h.out, b0, Live, hV, hA, q1⟩, q2.trans ho, q3.trans ho, q4⟩

theorem Encoded.isCode {data frags : Array (List Nat)} {props : Array Properties} {T : Nat} (h : c.Encoded data frags props)
    (hd : c.Data data T) (r : c.Root p n g) : IsCode c p g data T frags props := by
  obtain ⟨pkt, R, H, junk, enc, H', hpkt, hn, e⟩ := h
  obtain ⟨o, p', e', H'', ee, _, q2, q3, q4⟩ := (hn.inv r).encode_streams hpkt hd junk (outs := Array.replicate c.nOut [])
    (props := Array.replicate c.nOut .empty) (by simp) (by simp)
  rw [e] at ee
  cases ee
  have hf : frags.size = c.nOut := by simpa using q2
  refine ⟨hf, q3, fun f hf' => ?_, fun f hf' => (q4 f hf').2⟩
  have := (q4 f hf').1
  rw [gt_map (by omega), gt_replicate hf', List.nil_append] at this
  exact Option.some.inj this

theorem Inv.decode_streams {pkt : Nat} {R : RsFntObj} {enc : CtxB} {H : Heap} (h : Inv c p g pkt R enc H) (hpkt : 0 < pkt)
    {data frags : Array (List Nat)} {fprops : Array Properties} {T : Nat} (hd : c.Data data T) (hc : IsCode c p g data T frags fprops)
    {datas pars outs : Array (Option (List Nat))} {props : Array Properties} (hs : c.Surviving data frags fprops datas pars props)
    (mem : Nat → Nat) (junk : Nat → Nat → Nat) (ho : outs.size = c.k) :
    ∃ v o H', (R.fecV c.b).decode_streams_vertical datas pars props outs mem junk H = .ok (v, o, H') ∧ Inv c p g pkt R enc H' ∧
      (if c.sys = true ∧ avail datas = c.k then v = true ∧ o = outs
       else if (if c.sys then avail datas else 0) + avail pars < c.k then v = false ∧ o = outs
       else v = true ∧ o.size = c.k ∧ ∀ i, i < c.k → gt o i = (gt outs i).map (fun s => s ++ gt data i)) := by
  obtain ⟨b0, Live, hV, hA, hL⟩ := h.ex
  have hk : (R.fecV c.b).base.n_data = c.k := h.k
  have hw : (R.fecV c.b).base.word_size = c.w := h.w
  have hout : (R.fecV c.b).base.n_outputs = c.nOut := h.out
  have hsys : (R.fecV c.b).base.sys = c.sys := h.sys
  have hkp : 0 < c.k := by rw [← hk]; exact hV.kpos
  obtain ⟨⟨v, o, H'⟩, e, q1, q2⟩ := FecV.decode_streams_vertical_spec hV
    (by show 0 < R.code.base.pkt_size; rw [h.pkt]; exact hpkt) hL (D := gt data) (T := T) (datas := datas) (pars := pars) (outs := outs)
    (props := props) mem junk (by rw [hk]; exact hd.bytes) (by rw [hk, hw]; exact hd.len) (by rw [hsys, hk]; exact hs.dsize)
    (by rw [hout]; exact hs.psize) (by rw [hout]; exact hs.prsize) (by rw [hk]; exact ho)
    (by
      rw [hsys]
      intro hsy i s hi
      have hlt : i < c.k := by
        by_contra hge
        have h0 : gt datas i = none := by
          have : datas.size ≤ i := by rw [hs.dsize hsy]; omega
          simp [gt, this]; rfl
        rw [h0] at hi
        cases hi
      exact hs.dat hsy i s hlt hi)
    (by
      rw [hout, hw, hk]
      intro f s hf hfs
      obtain ⟨e1, e2⟩ := hs.par f s hf hfs
      exact ⟨by rw [e1, hc.frag f hf], by rw [e2, hc.prop f hf]⟩)
  have hdl : ((R.fecV c.b).base.dataList (datas.map Option.isSome)).length = if c.sys then avail datas else 0 := by
    unfold FecBase.dataList
    rw [hsys, hk]
    by_cases hsy : c.sys = true
    · rw [if_pos hsy, if_pos hsy]; exact present_eq_avail datas (hs.dsize hsy)
    · rw [if_neg hsy, if_neg hsy]; rfl
  have hpl : (present (pars.map Option.isSome) c.nOut).length = avail pars := present_eq_avail pars hs.psize
  rw [hdl, hk, hout, hpl] at q2
  refine ⟨v, o, H', e, ⟨h.sys, h.w, h.pkt, h.k, h.out, b0, Live, hV, hA, q1⟩, ?_⟩
  by_cases hsy : c.sys = true
  · simp only [hsy, if_true, true_and] at q2 ⊢
    by_cases h1 : avail datas = c.k
    · rw [if_pos h1] at q2 ⊢; cases q2; exact ⟨rfl, rfl⟩
    · rw [if_neg h1] at q2 ⊢
      by_cases h2 : avail datas + avail pars < c.k
      · rw [if_pos h2] at q2 ⊢; cases q2; exact ⟨rfl, rfl⟩
      · rw [if_neg h2] at q2 ⊢; exact q2
  · simp only [hsy, if_false, false_and, Bool.false_eq_true] at q2 ⊢
    rw [if_neg (by omega)] at q2
    by_cases h2 : 0 + avail pars < c.k
    · rw [if_pos h2] at q2 ⊢; cases q2; exact ⟨rfl, rfl⟩
    · rw [if_neg h2] at q2 ⊢; exact q2

theorem take_of_prefix {s l : List Nat} (h : s <+: l) : l.take s.length = s := by
  obtain ⟨t, rfl⟩ := h; simp

theorem Inv.encode_blocks {pkt : Nat} {R : RsFntObj} {enc : CtxB} {H : Heap} (h : Inv c p g pkt R enc H) (hpkt : 0 < pkt)
    {data : Array (List Nat)} {T bytes : Nat} (hd : c.Data data T) (hb : bytes / c.w = T) {datas pars : Array (Option (Array Nat))}
    {props : Array Properties} {wanted : Array Bool} (junk : Nat → Nat → Nat) (h1 : datas.size = c.k)
    (hs : ∀ i, i < c.k → StartsWith (gt datas i) (gt data i)) (h2 : pars.size = c.nOut) (h3 : props.size = c.nOut) (hw1 : c.nOut ≤ wanted.size)
    (hw2 : ∀ f, f < c.nOut → gt wanted f = true → ∃ d, gt pars f = some d ∧ T * c.w ≤ d.size) :
    ∃ pars' props' enc' H', (R.fecV c.b).encode_blocks_vertical enc datas pars props wanted bytes junk H = .ok (pars', props', enc', H') ∧
      Inv c p g pkt R enc' H' ∧ pars'.size = c.nOut ∧ props'.size = c.nOut ∧ ∀ f, f < c.nOut →
      gt pars' f = (if gt wanted f then (gt pars f).map (fun d => (flat c.w (fun t => stored g c.w c.sys c.k (row c data t) f) T ++
        d.toList.drop (T * c.w)).toArray) else gt pars f) ∧
      gt props' f = ⟨marksOf (fun t => mark g c.w c.sys c.k (row c data t) f) T⟩ := by
  obtain ⟨b0, Live, hV, hA, hL⟩ := h.ex
  have hk : (R.fecV c.b).base.n_data = c.k := h.k
  have hw : (R.fecV c.b).base.word_size = c.w := h.w
  have ho : (R.fecV c.b).base.n_outputs = c.nOut := h.out
  have hl : ∀ i, i < c.k → (((gt datas i).getD #[]).toList.take (T * c.w)) = gt data i ∧ T * c.w ≤ ((gt datas i).getD #[]).size ∧
      gt datas i = some ((gt datas i).getD #[]) ∧ ∀ x ∈ ((gt datas i).getD #[]).toList, x < 256 := by
    intro i hi
    obtain ⟨d, hd1, hd2, hd3⟩ := hs i hi
    rw [hd1]
    refine ⟨?_, ?_, rfl, hd2⟩
    · have := take_of_prefix hd3
      rwa [hd.len i hi] at this
    · have := hd3.length_le
      rw [hd.len i hi] at this
      simpa using this
  obtain ⟨o, p', e', H', e, q1, q2, q3, q4⟩ := FecV.encode_blocks_vertical_spec hV
    (by show 0 < R.code.base.pkt_size; rw [h.pkt]; exact hpkt) hL (B := fun i => (gt datas i).getD #[]) (T := T) (bytes := bytes)
    (datas := datas) (pars := pars) (props := props) (wanted := wanted) junk (by rw [hw]; exact hb) (by rw [hk]; exact h1)
    (by rw [hk]; exact fun i hi => (hl i hi).2.2.1) (by rw [ho]; exact h2) (by rw [ho]; exact h3)
    (by rw [hk]; exact fun i hi => (hl i hi).2.2.2) (by rw [hk, hw]; exact fun i hi => (hl i hi).2.1) (by rw [ho]; exact hw1)
    (by rw [ho, hw]; exact hw2)
  rw [ho, hk, hw] at q4
  refine ⟨o, p', e', H', e, ⟨h.sys, h.w, h.pkt, h.k, h.out, b0, Live, hV, hA, q1⟩, q2.trans ho, q3.trans ho, fun f hf => ?_⟩
  have hrow : ∀ t, rowAt c.w c.k (fun i => ((gt datas i).getD #[]).toList.take (T * c.w)) t = row c data t := by
    intro t
    apply gt_ext (by simp [rowAt])
    intro i hi
    have hi' : i < c.k := by simpa [rowAt] using hi
    rw [rowAt_gt hi', rowAt_gt hi', (hl i hi').1]
  have := q4 f hf
  simp only [hrow] at this
  exact this

theorem Inv.decode_blocks {pkt : Nat} {R : RsFntObj} {enc : CtxB} {H : Heap} (h : Inv c p g pkt R enc H) (hpkt : 0 < pkt)
    {data frags : Array (List Nat)} {fprops : Array Properties} {T bytes : Nat} (hd : c.Data data T) (hb : bytes / c.w = T)
    (hc : IsCode c p g data T frags fprops) {datas pars : Array (Option (Array Nat))} {props : Array Properties}
    {missing wanted : Array Bool} (hs : c.SurvivingBlocks data frags fprops datas pars props missing)
    (mem : Nat → Nat) (junk : Nat → Nat → Nat) (hw1 : c.k ≤ wanted.size)
    (hw2 : ∀ i, i < c.k → gt wanted i = true → ∃ d, gt datas i = some d ∧ T * c.w ≤ d.size) :
    ∃ v o H', (R.fecV c.b).decode_blocks_vertical datas pars props missing wanted bytes mem junk H = .ok (v, o, H') ∧
      Inv c p g pkt R enc H' ∧
      (if c.sys = true ∧ (∀ i, i < c.k → gt missing i = false) then v = true ∧ o = datas
       else if missing.toList.count false < c.k then v = false ∧ o = datas
       else v = true ∧ o.size = c.k ∧ ∀ i, i < c.k → gt o i = if gt wanted i then (gt datas i).map
          (fun d => (gt data i ++ d.toList.drop (T * c.w)).toArray) else gt datas i) := by
  obtain ⟨b0, Live, hV, hA, hL⟩ := h.ex
  have hk : (R.fecV c.b).base.n_data = c.k := h.k
  have hw : (R.fecV c.b).base.word_size = c.w := h.w
  have hout : (R.fecV c.b).base.n_outputs = c.nOut := h.out
  have hsys : (R.fecV c.b).base.sys = c.sys := h.sys
  have hkp : 0 < c.k := by rw [← hk]; exact hV.kpos
  have hstart : ∀ {blk : Option (Array Nat)} {s : List Nat}, StartsWith blk s → s.length = T * c.w →
      ∃ d, blk = some d ∧ T * c.w ≤ d.size ∧ d.toList.take (T * c.w) = s := by
    rintro blk s ⟨d, h1, _, h3⟩ h4
    refine ⟨d, h1, ?_, ?_⟩
    · have := h3.length_le; rw [h4] at this; simpa using this
    · rw [← h4]; exact take_of_prefix h3
  obtain ⟨⟨v, o, H'⟩, e, q1, q2⟩ := FecV.decode_blocks_vertical_spec hV
    (by show 0 < R.code.base.pkt_size; rw [h.pkt]; exact hpkt) hL (D := gt data) (T := T) (bytes := bytes) (datas := datas) (pars := pars)
    (props := props) (missing := missing) (wanted := wanted) mem junk (by rw [hw]; exact hb) (by rw [hk]; exact hd.bytes)
    (by rw [hk, hw]; exact hd.len) (by rw [hk]; exact hs.dsize) (by rw [hout]; exact hs.psize) (by rw [hout]; exact hs.prsize)
    (by rw [hsys, hk, hout, hs.msize]; unfold FntCode.nOut; split <;> rfl) (by rw [hk]; exact hw1)
    (by
      rw [hsys, hk, hw]
      intro hsy i hi hm
      exact hstart (hs.dat hsy i hi hm) (hd.len i hi))
    (by
      rw [hsys, hk, hw, hout]
      intro f hf hm
      obtain ⟨e1, e2⟩ := hs.par f hf hm
      refine ⟨?_, by rw [e2, hc.prop f hf]⟩
      have := hstart e1 (by rw [hc.frag f hf, flat_length])
      rwa [hc.frag f hf] at this)
    (by rw [hk, hw]; exact hw2) rfl rfl
  rw [hk, hw, hout, hsys] at q2
  refine ⟨v, o, H', e, ⟨h.sys, h.w, h.pkt, h.k, h.out, b0, Live, hV, hA, q1⟩, ?_⟩
  simp only at q2
  by_cases hsy : c.sys = true
  · have hdl : (R.fecV c.b).base.dataList (missing.map (fun b => !b)) = present (missing.map (fun b => !b)) c.k := by
      unfold FecBase.dataList; rw [hsys, hk, if_pos hsy]
    have hms : missing.size = c.k + c.m := by rw [hs.msize, if_pos hsy]
    have hno : c.nOut = c.m := by unfold FntCode.nOut; rw [if_pos hsy]
    have hall := present_not_all (missing := missing) (k := c.k) (by omega)
    have htot := present_not_split (missing := missing) (k := c.k) (m := c.nOut) (by omega)
    simp only [hsy, if_true, true_and] at q2 ⊢
    rw [hdl, htot] at q2
    by_cases h1 : ∀ i, i < c.k → gt missing i = false
    · rw [if_pos (hall.mpr h1)] at q2
      rw [if_pos h1]
      cases q2; exact ⟨rfl, rfl⟩
    · rw [if_neg (fun h => h1 (hall.mp h))] at q2
      rw [if_neg h1]
      by_cases h2 : missing.toList.count false < c.k
      · rw [if_pos h2] at q2 ⊢; cases q2; exact ⟨rfl, rfl⟩
      · rw [if_neg h2] at q2 ⊢; exact q2
  · have hdl : (R.fecV c.b).base.dataList (missing.map (fun b => !b)) = [] := by
      unfold FecBase.dataList; rw [hsys, if_neg hsy]
    have hms : missing.size = c.nOut := by rw [hs.msize, if_neg hsy]
    have htot := present_not_count hms
    simp only [hsy, if_false, false_and, Bool.false_eq_true] at q2 ⊢
    rw [hdl, htot, List.length_nil, if_neg (by omega), Nat.zero_add] at q2
    by_cases h2 : missing.toList.count false < c.k
    · rw [if_pos h2] at q2 ⊢; cases q2; exact ⟨rfl, rfl⟩
    · rw [if_neg h2] at q2 ⊢; exact q2

theorem rsym_seen {fr : Array (Option (List Nat))} {props : Array Properties} {ids : Array Nat} (j t : Nat) :
    rsym c.sys c.k (8 * c.w) props ids (wordAt c.w ((gt fr (gt ids j)).getD []) t) j t = c.seen fr props (gt ids j) t := by
  unfold rsym propOf FntCode.seen
  rw [wordAt_ofDigits]
  cases hs : c.sys
  · simp
  · by_cases hlt : gt ids j < c.k
    · simp [hlt]
    · simp [hlt, Nat.le_of_not_lt hlt]

/-- what decoding appends to stream `i` -/
noncomputable def decoded (c : FntCode) {p : Nat} [Fact p.Prime] (g : ZMod p) (T : Nat) (fr : Array (Option (List Nat))) (props : Array Properties) (i : Nat) :
    List Nat :=
  flat c.w (fun t => RsFntObj.ival g c.sys c.k (picked c.k fr).toArray (fun j => c.seen fr props (gt (picked c.k fr).toArray j) t) i) T

theorem Inv.decode_any {pkt : Nat} {R : RsFntObj} {enc : CtxB} {H : Heap} (h : Inv c p g pkt R enc H) (hpkt : 0 < pkt) {T : Nat}
    {datas pars outs : Array (Option (List Nat))} {props : Array Properties} (hs : c.AnyStreams T datas pars props)
    (mem : Nat → Nat) (junk : Nat → Nat → Nat) (ho : outs.size = c.k) :
    ∃ v o H', (R.fecV c.b).decode_streams_vertical datas pars props outs mem junk H = .ok (v, o, H') ∧ Inv c p g pkt R enc H' ∧
      (if c.sys = true ∧ avail datas = c.k then v = true ∧ o = outs
       else if (if c.sys then avail datas else 0) + avail pars < c.k then v = false ∧ o = outs
       else v = true ∧ o.size = c.k ∧
         ValidIds c.k (if c.sys then c.k + c.nOut else c.nOut) (picked c.k (c.fragments datas pars)).toArray ∧
         ∀ i, i < c.k → gt o i = (gt outs i).map (fun s => s ++ decoded c g T (c.fragments datas pars) props i)) := by
  obtain ⟨b0, Live, hV, hA, hL⟩ := h.ex
  have hk : (R.fecV c.b).base.n_data = c.k := h.k
  have hw : (R.fecV c.b).base.word_size = c.w := h.w
  have hout : (R.fecV c.b).base.n_outputs = c.nOut := h.out
  have hsys : (R.fecV c.b).base.sys = c.sys := h.sys
  have hkp : 0 < c.k := by rw [← hk]; exact hV.kpos
  have hnone : ∀ (a : Array (Option (List Nat))) i s, gt a i = some s → i < a.size := by
    intro a i s hi
    by_contra hge
    have h0 : gt a i = none := by simp [gt, Nat.le_of_not_lt hge]; rfl
    rw [h0] at hi; cases hi
  obtain ⟨⟨v, o, H'⟩, e, q1, q2⟩ := FecV.decode_streams_vertical_any hV (hA props)
    (by show 0 < R.code.base.pkt_size; rw [h.pkt]; exact hpkt) hL (T := T) (datas := datas) (pars := pars) (outs := outs)
    (props := props) mem junk (by rw [hsys, hk]; exact hs.dsize)
    (by rw [hout]; exact hs.psize) (by rw [hout]; exact hs.prsize) (by rw [hk]; exact ho)
    (by
      rw [hsys, hw]
      intro i s hi
      unfold allFrags at hi
      by_cases hsy : c.sys = true
      · rw [if_pos hsy, gt_append] at hi
        by_cases hlt : i < datas.size
        · rw [if_pos hlt] at hi
          exact hs.dat hsy i s (by rw [← hs.dsize hsy]; exact hlt) hi
        · rw [if_neg hlt] at hi
          exact hs.par _ s (by rw [← hs.psize]; exact hnone _ _ _ hi) hi
      · rw [if_neg hsy] at hi
        exact hs.par _ s (by rw [← hs.psize]; exact hnone _ _ _ hi) hi)
  have hdl : ((R.fecV c.b).base.dataList (datas.map Option.isSome)).length = if c.sys then avail datas else 0 := by
    unfold FecBase.dataList
    rw [hsys, hk]
    by_cases hsy : c.sys = true
    · rw [if_pos hsy, if_pos hsy]; exact present_eq_avail datas (hs.dsize hsy)
    · rw [if_neg hsy, if_neg hsy]; rfl
  have hpl : (present (pars.map Option.isSome) c.nOut).length = avail pars := present_eq_avail pars hs.psize
  rw [hdl, hk, hout, hpl, hw, hsys] at q2
  simp only [rsym_seen] at q2
  refine ⟨v, o, H', e, ⟨h.sys, h.w, h.pkt, h.k, h.out, b0, Live, hV, hA, q1⟩, ?_⟩
  by_cases hsy : c.sys = true
  · have hfr : allFrags c.sys datas pars = c.fragments datas pars := rfl
    rw [hfr] at q2
    simp only [hsy, if_true, true_and] at q2 ⊢
    by_cases h1 : avail datas = c.k
    · rw [if_pos h1] at q2 ⊢; cases q2; exact ⟨rfl, rfl⟩
    · rw [if_neg h1] at q2 ⊢
      by_cases h2 : avail datas + avail pars < c.k
      · rw [if_pos h2] at q2 ⊢; cases q2; exact ⟨rfl, rfl⟩
      · rw [if_neg h2] at q2 ⊢
        unfold decoded
        rw [hsy]
        exact q2
  · have hfr : allFrags c.sys datas pars = c.fragments datas pars := rfl
    rw [hfr] at q2
    simp only [hsy, if_false, false_and, Bool.false_eq_true] at q2 ⊢
    rw [if_neg (by omega)] at q2
    by_cases h2 : 0 + avail pars < c.k
    · rw [if_pos h2] at q2 ⊢; cases q2; exact ⟨rfl, rfl⟩
    · rw [if_neg h2] at q2 ⊢
      have hsf : c.sys = false := by simpa using hsy
      unfold decoded
      rw [hsf]
      exact q2

theorem Inv.decode_blocks_any {pkt : Nat} {R : RsFntObj} {enc : CtxB} {H : Heap} (h : Inv c p g pkt R enc H) (hpkt : 0 < pkt)
    {T bytes : Nat} (hb : bytes / c.w = T) {datas pars : Array (Option (Array Nat))} {props : Array Properties}
    {missing wanted : Array Bool} (hs : c.AnyBlocks T datas pars props missing)
    (mem : Nat → Nat) (junk : Nat → Nat → Nat) (hw1 : c.k ≤ wanted.size)
    (hw2 : ∀ i, i < c.k → gt wanted i = true → ∃ d, gt datas i = some d ∧ T * c.w ≤ d.size) :
    ∃ v o H', (R.fecV c.b).decode_blocks_vertical datas pars props missing wanted bytes mem junk H = .ok (v, o, H') ∧
      Inv c p g pkt R enc H' ∧
      (if c.sys = true ∧ (∀ i, i < c.k → gt missing i = false) then v = true ∧ o = datas
       else if missing.toList.count false < c.k then v = false ∧ o = datas
       else v = true ∧ o.size = c.k ∧
         ValidIds c.k (if c.sys then c.k + c.nOut else c.nOut) (picked c.k (c.blockFragments T datas pars missing)).toArray ∧
         ∀ i, i < c.k → gt o i = if gt wanted i then (gt datas i).map
          (fun d => (decoded c g T (c.blockFragments T datas pars missing) props i ++ d.toList.drop (T * c.w)).toArray) else gt datas i) := by
  obtain ⟨b0, Live, hV, hA, hL⟩ := h.ex
  have hk : (R.fecV c.b).base.n_data = c.k := h.k
  have hw : (R.fecV c.b).base.word_size = c.w := h.w
  have hout : (R.fecV c.b).base.n_outputs = c.nOut := h.out
  have hsys : (R.fecV c.b).base.sys = c.sys := h.sys
  have hkp : 0 < c.k := by rw [← hk]; exact hV.kpos
  have hms : missing.size = if c.sys then c.k + c.nOut else c.nOut := by
    rw [hs.msize]; unfold FntCode.nOut; split <;> rfl
  have hfg : ∀ j, j < missing.size → gt (c.blockFragments T datas pars missing) j = if gt missing j then none
      else (gt (if c.sys then datas ++ pars else pars) j).map (fun d => d.toList.take (T * c.w)) := by
    intro j hj
    unfold FntCode.blockFragments
    rw [gt_ofFn hj]
  have hdatj : c.sys = true → ∀ i, i < c.k → gt missing i = false → ∃ d, gt datas i = some d ∧ T * c.w ≤ d.size ∧ (∀ x ∈ d.toList, x < 256) ∧
      gt (c.blockFragments T datas pars missing) i = some (d.toList.take (T * c.w)) := by
    intro hsy i hi hm
    obtain ⟨d, h1, h2, h3⟩ := hs.dat hsy i hi hm
    refine ⟨d, h1, h2, h3, ?_⟩
    rw [hfg i (by rw [hms, if_pos hsy]; omega), hm, if_neg (by simp), if_pos hsy, gt_append, if_pos (by rw [hs.dsize]; exact hi), h1]
    rfl
  have hparj : ∀ f, f < c.nOut → gt missing (if c.sys then c.k + f else f) = false → ∃ d, gt pars f = some d ∧ T * c.w ≤ d.size ∧
      (∀ x ∈ d.toList, x < 256) ∧ gt (c.blockFragments T datas pars missing) (if c.sys then c.k + f else f) = some (d.toList.take (T * c.w)) := by
    intro f hf hm
    obtain ⟨d, h1, h2, h3⟩ := hs.par f hf hm
    refine ⟨d, h1, h2, h3, ?_⟩
    rw [hfg _ (by rw [hms]; split <;> omega), hm, if_neg (by simp)]
    by_cases hsy : c.sys = true
    · rw [if_pos hsy, if_pos hsy, gt_append, hs.dsize, if_neg (by omega), Nat.add_sub_cancel_left, h1]; rfl
    · rw [if_neg hsy, if_neg hsy, h1]; rfl
  have hnm : ∀ j s, gt (c.blockFragments T datas pars missing) j = some s → j < missing.size ∧ gt missing j = false := by
    intro j s hj
    have hlt : j < missing.size := by
      by_contra hge
      have h0 : gt (c.blockFragments T datas pars missing) j = none := by
        have hz : (c.blockFragments T datas pars missing).size ≤ j := by simpa [FntCode.blockFragments] using hge
        simp [gt, hz]; rfl
      rw [h0] at hj; cases hj
    refine ⟨hlt, ?_⟩
    rw [hfg j hlt] at hj
    by_contra hm
    rw [if_pos (by simpa using hm)] at hj; cases hj
  have hcase : ∀ j, j < missing.size → gt missing j = false → ∃ d : Array Nat, (∀ x ∈ d.toList, x < 256) ∧
      gt (c.blockFragments T datas pars missing) j = some (d.toList.take (T * c.w)) := by
    intro j hj hm
    by_cases hsy : c.sys = true
    · by_cases hlt : j < c.k
      · obtain ⟨d, _, _, h3, h4⟩ := hdatj hsy j hlt hm
        exact ⟨d, h3, h4⟩
      · rw [if_pos hsy] at hms
        obtain ⟨d, _, _, h3, h4⟩ := hparj (j - c.k) (by omega) (by rw [if_pos hsy, show c.k + (j - c.k) = j by omega]; exact hm)
        rw [if_pos hsy, show c.k + (j - c.k) = j by omega] at h4
        exact ⟨d, h3, h4⟩
    · rw [if_neg hsy] at hms
      obtain ⟨d, _, _, h3, h4⟩ := hparj j (by omega) (by rw [if_neg hsy]; exact hm)
      rw [if_neg hsy] at h4
      exact ⟨d, h3, h4⟩
  obtain ⟨⟨v, o, H'⟩, e, q1, q2⟩ := FecV.decode_blocks_vertical_any hV (hA props)
    (by show 0 < R.code.base.pkt_size; rw [h.pkt]; exact hpkt) hL (T := T) (bytes := bytes) (datas := datas) (pars := pars)
    (props := props) (missing := missing) (wanted := wanted) mem junk (by rw [hw]; exact hb)
    (by rw [hk]; exact hs.dsize) (by rw [hout]; exact hs.psize) (by rw [hout]; exact hs.prsize)
    (by rw [hsys, hk, hout]; exact hms) (by rw [hk]; exact hw1) (fr := c.blockFragments T datas pars missing)
    (by simp [FntCode.blockFragments])
    (by
      intro j hj
      cases hm : gt missing j with
      | false =>
        obtain ⟨d, _, h4⟩ := hcase j hj hm
        rw [h4]; rfl
      | true => rw [hfg j hj, hm]; rfl)
    (by
      rw [hsys, hk, hw]
      intro hsy i s hi hf
      obtain ⟨d, h1, h2, _, h4⟩ := hdatj hsy i hi (hnm i s hf).2
      rw [h4] at hf
      exact ⟨d, h1, h2, Option.some.inj hf⟩)
    (by
      rw [hsys, hk, hw, hout]
      intro f s hf hff
      obtain ⟨d, h1, h2, _, h4⟩ := hparj f hf (hnm _ s hff).2
      rw [h4] at hff
      exact ⟨d, h1, h2, Option.some.inj hff⟩)
    (by
      intro j s hj
      obtain ⟨h1, h2⟩ := hnm j s hj
      obtain ⟨d, h3, h4⟩ := hcase j h1 h2
      rw [h4] at hj
      cases hj
      exact fun x hx => h3 x (List.mem_of_mem_take hx))
    (by rw [hk, hw]; exact hw2) rfl rfl
  rw [hk, hw, hout, hsys] at q2
  simp only [rsym_seen] at q2
  refine ⟨v, o, H', e, ⟨h.sys, h.w, h.pkt, h.k, h.out, b0, Live, hV, hA, q1⟩, ?_⟩
  by_cases hsy : c.sys = true
  · have hdl : (R.fecV c.b).base.dataList (missing.map (fun b => !b)) = present (missing.map (fun b => !b)) c.k := by
      unfold FecBase.dataList; rw [hsys, hk, if_pos hsy]
    have hms : missing.size = c.k + c.m := by rw [hs.msize, if_pos hsy]
    have hno : c.nOut = c.m := by unfold FntCode.nOut; rw [if_pos hsy]
    have hall := present_not_all (missing := missing) (k := c.k) (by omega)
    have htot := present_not_split (missing := missing) (k := c.k) (m := c.nOut) (by omega)
    unfold decoded
    simp only [hsy, if_true, true_and] at q2 ⊢
    rw [hdl, htot] at q2
    by_cases h1 : ∀ i, i < c.k → gt missing i = false
    · rw [if_pos (hall.mpr h1)] at q2
      rw [if_pos h1]
      cases q2; exact ⟨rfl, rfl⟩
    · rw [if_neg (fun h => h1 (hall.mp h))] at q2
      rw [if_neg h1]
      by_cases h2 : missing.toList.count false < c.k
      · rw [if_pos h2] at q2 ⊢; cases q2; exact ⟨rfl, rfl⟩
      · rw [if_neg h2] at q2 ⊢; exact q2
  · have hdl : (R.fecV c.b).base.dataList (missing.map (fun b => !b)) = [] := by
      unfold FecBase.dataList; rw [hsys, if_neg hsy]
    have hms : missing.size = c.nOut := by rw [hs.msize, if_neg hsy]
    have htot := present_not_count hms
    have hsf : c.sys = false := by simpa using hsy
    unfold decoded
    simp only [hsf, if_false, false_and, Bool.false_eq_true] at q2 ⊢
    rw [hdl, htot, List.length_nil, if_neg (by omega), Nat.zero_add] at q2
    by_cases h2 : missing.toList.count false < c.k
    · rw [if_pos h2] at q2 ⊢; cases q2; exact ⟨rfl, rfl⟩
    · rw [if_neg h2] at q2 ⊢; exact q2

theorem TaskOk.of {pkt : Nat} {R : RsFntObj} {C : CtxB} {H : Heap} (h : Inv c p g pkt R C H) (r : c.Root p n g) {t : Task} (ht : c.TaskOk t) :
    FecV.TaskOk (R.fecV c.b) (stored g c.w c.sys c.k) (mark g c.w c.sys c.k) t := by
  have hk : (R.fecV c.b).base.n_data = c.k := h.k
  have hw : (R.fecV c.b).base.word_size = c.w := h.w
  have ho : (R.fecV c.b).base.n_outputs = c.nOut := h.out
  have hs : (R.fecV c.b).base.sys = c.sys := h.sys
  have hco : ∀ {data frags : Array (List Nat)} {fprops : Array Properties}, (∃ T, c.Data data T ∧ c.Encoded data frags fprops) →
      ∃ T, FecV.Coded (R.fecV c.b) (stored g c.w c.sys c.k) (mark g c.w c.sys c.k) data T frags fprops := by
    rintro data frags fprops ⟨T, hd, he⟩
    have hI := he.isCode hd r
    refine ⟨T, by rw [hk]; exact hd.size, by rw [hk]; exact hd.bytes, by rw [hk, hw]; exact hd.len, ?_⟩
    rw [hk, hw, ho]
    exact ⟨hI.fsize, hI.psize, hI.frag, hI.prop⟩
  cases t with
  | enc data frags fprops => exact hco ht
  | dec data frags fprops props ids =>
    obtain ⟨h1, h2, h3, h4, h5, h6⟩ := ht
    refine ⟨hco h1, ?_, by rw [ho]; exact h5, by rw [hk, ho, hs]; exact h6⟩
    rw [hk, hs, ho]
    refine ⟨h2, h3, fun i hi => ?_⟩
    have := h4 i hi
    unfold nOut
    split <;> omega

theorem _root_.Quad.Spec.ValidSteps.imp {P Q : Task → Prop} (h : ∀ t, P t → Q t) : ∀ {n : Nat} {l : List Step}, ValidSteps P n l → ValidSteps Q n l
  | _, [], _ => trivial
  | _, .start _ _ _ :: _, hv => ⟨h _ hv.1, ValidSteps.imp h hv.2⟩
  | _, .next _ _ :: _, hv => ⟨hv.1, ValidSteps.imp h hv.2⟩

theorem Inv.sessions {pkt : Nat} {R : RsFntObj} {C : CtxB} {H : Heap} (h : Inv c p g pkt R C H) (r : c.Root p n g) {l : List Step}
    (hv : ValidSteps c.TaskOk 0 l) :
    ∃ H' run, Session.run (R.fecV c.b) (l.map (Step.act c.sys c.k)) ⟨C, H, #[]⟩ = .ok (⟨C, H', run⟩, expected pkt c.w #[] l) ∧
      Inv c p g pkt R C H' := by
  obtain ⟨b0, Live, hV, hA, hL⟩ := h.ex
  have hk : (R.fecV c.b).base.n_data = c.k := h.k
  have hw : (R.fecV c.b).base.word_size = c.w := h.w
  have hs : (R.fecV c.b).base.sys = c.sys := h.sys
  have hp : (R.fecV c.b).base.pkt_size = pkt := h.pkt
  obtain ⟨H', run, e, hL'⟩ := FecV.run_spec hV (C0 := C) l (N := l.length) (H := H) (run := #[]) (a := #[]) le_rfl
    ⟨hL, rfl, fun _ _ => False, fun i hi => by simp at hi, fun i j b hi => by simp at hi⟩ (hv.imp (fun t ht => TaskOk.of h r ht))
  rw [hk, hs, hp, hw] at e
  exact ⟨H', run, e, h.sys, h.w, h.pkt, h.k, h.out, b0, Live, hV, hA, hL'⟩

theorem Reachable.inv {pkt : Nat} {R : RsFntObj} {C : CtxB} {H : Heap} (h : c.Reachable pkt R C H) (hpkt : 0 < pkt) (r : c.Root p n g) :
    Inv c p g pkt R C H := by
  induction h with
  | new h => exact h.inv r
  | alloc _ hle heq ih =>
    obtain ⟨b0, Live, hV, hA, hL⟩ := ih.ex
    exact ⟨ih.sys, ih.w, ih.pkt, ih.k, ih.out, b0, Live, hV, hA, hV.keep hL hle (fun b hb => heq b (by have := hV.size hL; omega))⟩
  | @encode C H data L outs props junk o p' C' H' _ hd he ih =>
    have ho : (R.fecV c.b).base.n_outputs = c.nOut := ih.out
    have hsz : outs.size = c.nOut ∧ props.size = c.nOut := by
      by_contra hcon
      unfold FecV.encode_streams_vertical at he
      rw [ho] at he
      by_cases h1 : data.size = (R.fecV c.b).base.n_data <;> by_cases h2 : outs.size = c.nOut <;> by_cases h3 : props.size = c.nOut <;>
        simp [cassert, h1, h2, h3] at he hcon
    obtain ⟨o', p'', e', H'', ee, i, _⟩ := ih.encode_bytes hpkt hd junk hsz.1 hsz.2
    rw [he] at ee; cases ee; exact i
  | @decode C H data T frags fprops datas pars outs props mem junk o v H' _ hd hE hs he ih =>
    have hsz : outs.size = c.k := by
      by_contra hcon
      have hk : (R.fecV c.b).base.n_data = c.k := ih.k
      unfold FecV.decode_streams_vertical at he
      simp only [hk] at he
      by_cases h0 : (R.fecV c.b).base.sys = true <;> by_cases h1 : datas.size = c.k <;> by_cases h2 : pars.size = (R.fecV c.b).base.n_outputs <;>
        by_cases h3 : props.size = (R.fecV c.b).base.n_outputs <;>
        simp [cassert, h0, h1, h2, h3, hcon, pure, Except.pure] at he
    obtain ⟨v', o', H'', ee, i, _⟩ := ih.decode_streams hpkt hd (hE.isCode hd r) hs mem junk hsz
    rw [he] at ee; cases ee; exact i
  | @encodeBlocks C H data T bytes datas pars props wanted junk o p' C' H' _ hd hb h1 hs hw1 hw2 he ih =>
    have ho : (R.fecV c.b).base.n_outputs = c.nOut := ih.out
    have hsz : pars.size = c.nOut ∧ props.size = c.nOut := by
      by_contra hcon
      unfold FecV.encode_blocks_vertical at he
      rw [ho] at he
      by_cases h1 : datas.size = (R.fecV c.b).base.n_data <;> by_cases h2 : pars.size = c.nOut <;> by_cases h3 : props.size = c.nOut <;>
        simp [cassert, h1, h2, h3] at he hcon
    obtain ⟨o', p'', e', H'', ee, i, _⟩ := ih.encode_blocks hpkt hd hb junk h1 hs hsz.1 hsz.2 hw1 hw2
    rw [he] at ee; cases ee; exact i
  | @decodeBlocks C H data T bytes frags fprops datas pars props missing wanted mem junk v o H' _ hd hb hE hs hw1 hw2 he ih =>
    obtain ⟨v', o', H'', ee, i, _⟩ := ih.decode_blocks hpkt hd hb (hE.isCode hd r) hs mem junk hw1 hw2
    rw [he] at ee; cases ee; exact i
  | @decodeAny C H T datas pars outs props mem junk o v H' _ hs he ih =>
    have hsz : outs.size = c.k := by
      by_contra hcon
      have hk : (R.fecV c.b).base.n_data = c.k := ih.k
      unfold FecV.decode_streams_vertical at he
      simp only [hk] at he
      by_cases h0 : (R.fecV c.b).base.sys = true <;> by_cases h1 : datas.size = c.k <;> by_cases h2 : pars.size = (R.fecV c.b).base.n_outputs <;>
        by_cases h3 : props.size = (R.fecV c.b).base.n_outputs <;>
        simp [cassert, h0, h1, h2, h3, hcon, pure, Except.pure] at he
    obtain ⟨v', o', H'', ee, i, _⟩ := ih.decode_any hpkt hs mem junk hsz
    rw [he] at ee; cases ee; exact i
  | @decodeBlocksAny C H T bytes datas pars props missing wanted mem junk v o H' _ hb hs hw1 hw2 he ih =>
    obtain ⟨v', o', H'', ee, i, _⟩ := ih.decode_blocks_any hpkt hb hs mem junk hw1 hw2
    rw [he] at ee; cases ee; exact i
  | @sessions C H l C' H' run es _ hv he ih =>
    obtain ⟨H'', run', ee, i⟩ := ih.sessions r hv
    rw [he] at ee; cases ee; exact i

end
end Spec.FntCode
end Quad
