import Verif.Props.FecVert
import Mathlib.RingTheory.RootsOfUnity.PrimitiveRoots

/-!
# Streams whose length is not a multiple of the word size (C36, C23)

The packet functions read the short last word as if it were completed with zeros, and write as many
bytes of every fragment as they read: the last word of every fragment is cut.  The functions that work word by word
drop the short word.  So the entry points disagree, and from cut fragments the last bytes cannot be recovered.
-/

namespace Quad.Props
open Quad Spec Polynomial

theorem rowAt_padded {c : FntCode} {data : Array (List Nat)} {L : Nat} (hd : c.Bytes data L) (t : Nat) :
    rowAt c.w c.k (gt (c.padded data L)) t = rowAt c.w c.k (gt data) t := by
  apply gt_ext (by simp [rowAt])
  intro i hi
  have hi' : i < c.k := by simpa [rowAt] using hi
  rw [rowAt_gt hi', rowAt_gt hi']
  unfold FntCode.padded wordAt
  rw [gt_map (by rw [hd.size]; exact hi'), List.drop_append, List.take_append, List.drop_replicate, List.take_replicate, leVal_append_zeros]

theorem padded_data {c : FntCode} (hw : 0 < c.w) {data : Array (List Nat)} {L : Nat} (hd : c.Bytes data L) :
    c.Data (c.padded data L) (c.words L) := by
  refine ⟨by simp [FntCode.padded, hd.size], fun i hi x hx => ?_, fun i hi => ?_⟩
  · unfold FntCode.padded at hx
    rw [gt_map (by rw [hd.size]; exact hi)] at hx
    rcases List.mem_append.mp hx with h | h
    · exact hd.bytes i hi x h
    · rw [List.eq_of_mem_replicate h]; omega
  · unfold FntCode.padded
    rw [gt_map (by rw [hd.size]; exact hi), List.length_append, List.length_replicate, hd.len i hi]
    have := (FntCode.words_bounds hw L).1
    omega

theorem FntCode.Ok.wpos {c : FntCode} (hc : c.Ok) : 0 < c.w := by rcases hc.hw with h | h <;> omega

/-- C36, any stream length: in packets of any size, streams of `L` bytes give the fragments of the streams completed with
zeros to whole words, cut to `L` bytes, and the marks of these. -/
theorem C36_streams_any_length {c : FntCode} (hc : c.Ok) {data frags : Array (List Nat)} {fprops : Array Properties} {L : Nat}
    (hd : c.Bytes data L) (he : c.Encoded (c.padded data L) frags fprops) {pkt : Nat} (hpkt : 0 < pkt) {R : RsFntObj} {C : CtxB} {H : Heap}
    (hr : c.Reachable pkt R C H) {outs : Array (List Nat)} {props : Array Properties} (junk : Nat → Nat → Nat)
    (h1 : outs.size = c.nOut) (h2 : props.size = c.nOut) :
    ∃ o C' H', (R.fecV c.b).encode_streams_vertical C data outs props junk H = .ok (o, fprops, C', H') ∧ o.size = c.nOut ∧
      (∀ f, f < c.nOut → gt o f = some (gt outs f ++ (gt frags f).take L)) ∧ c.Reachable pkt R C' H' := by
  obtain ⟨p, n, _, g, r⟩ := FntCode.exists_root hc
  have hI := he.isCode (padded_data (FntCode.Ok.wpos hc) hd) r
  obtain ⟨o, pp, C', H', e, _, s2, s3, s4⟩ := (hr.inv hpkt r).encode_bytes hpkt hd junk h1 h2
  have hpp : pp = fprops := gt_ext (by rw [s3, hI.psize]) (fun i hi => by
    rw [(s4 i (by omega)).2, hI.prop i (by omega)]
    simp only [FntCode.row, rowAt_padded hd])
  rw [hpp] at e
  refine ⟨o, C', H', e, s2, fun f hf => ?_, hr.encode hd e⟩
  rw [(s4 f hf).1, hI.frag f hf]
  simp only [FntCode.row, rowAt_padded hd]

/-- C36, any stream length: word by word (non-systematic mode), the fragments are those of the whole words, the short word is dropped. -/
theorem C36_horizontal_any_length {c : FntCode} (hc : c.Ok) (hs : c.sys = false) {data frags : Array (List Nat)} {fprops : Array Properties}
    {L : Nat} (hd : c.Bytes data L) (he : c.Encoded (c.whole data L) frags fprops) (pkt : Nat) (mem mem' : Nat → Nat) :
    ∃ B, RsFnt.mkBase c.b c.db c.sys c.w c.k c.m pkt mem = .ok B ∧
      (RsFnt.fec B).encode_streams_horizontal data (Array.replicate c.nOut []) (Array.replicate c.nOut .empty) mem' = .ok (frags, fprops) := by
  obtain ⟨p, n, _, g, r⟩ := FntCode.exists_root hc
  have hw0 := FntCode.Ok.wpos hc
  have hle : L / c.w * c.w ≤ L := Nat.div_mul_le_self _ _
  have hlt : L < L / c.w * c.w + c.w := by
    have h1 := Nat.div_add_mod L c.w
    have h2 := Nat.mod_lt L hw0
    rw [Nat.mul_comm] at h1
    omega
  have hdw : c.Data (c.whole data L) (L / c.w) := by
    refine ⟨by simp [FntCode.whole, hd.size], fun i hi x hx => ?_, fun i hi => ?_⟩
    · unfold FntCode.whole at hx
      rw [gt_map (by rw [hd.size]; exact hi)] at hx
      exact hd.bytes i hi x (List.mem_of_mem_take hx)
    · unfold FntCode.whole
      rw [gt_map (by rw [hd.size]; exact hi), List.length_take, hd.len i hi]
      omega
  have hrow : ∀ t, t < L / c.w → rowAt c.w c.k (gt (c.whole data L)) t = rowAt c.w c.k (gt data) t := by
    intro t ht
    apply gt_ext (by simp [rowAt])
    intro i hi
    have hi' : i < c.k := by simpa [rowAt] using hi
    rw [rowAt_gt hi', rowAt_gt hi']
    unfold FntCode.whole wordAt
    have : t * c.w + c.w ≤ L / c.w * c.w := by
      have := Nat.mul_le_mul_right c.w (show t + 1 ≤ L / c.w by omega)
      rw [Nat.add_mul, Nat.one_mul] at this; exact this
    rw [gt_map (by rw [hd.size]; exact hi'), List.drop_take, List.take_take, min_eq_left (by omega)]
  have hI := he.isCode hdw r
  obtain ⟨B, eB, hw, hk, ho, hH⟩ := r.horiz hs pkt mem
  have hk0 := hc.hk
  obtain ⟨o, pp, e, s1, s2, s3⟩ := Fec.encode_streams_horizontal_spec hH (data := data) (outs := Array.replicate c.nOut [])
    (props := Array.replicate c.nOut .empty) mem' (T := L / c.w) (by show _ = B.n_data; rw [hk]; exact hd.size) (by show _ = B.n_outputs; simp [ho])
    (by show _ = B.n_outputs; simp [ho]) (by show ∀ i, i < B.n_data → _; rw [hk]; exact hd.bytes)
    (by
      show Rows B.word_size B.n_data _ _
      rw [hw, hk]
      exact ⟨fun i hi => by rw [hd.len i hi]; exact hle, 0, hk0, by rw [hd.len 0 hk0, Nat.succ_mul]; omega⟩)
  change o.size = B.n_outputs at s1
  change pp.size = B.n_outputs at s2
  change ∀ f, f < B.n_outputs → _ = _ ++ flat B.word_size (fun t => FntCode.stored g c.w c.sys c.k (rowAt B.word_size B.n_data _ _) _) _ ∧
    _ = (⟨marksOf (fun t => FntCode.mark g c.w c.sys c.k (rowAt B.word_size B.n_data _ _) _) _⟩ : Properties) at s3
  rw [ho, hw, hk] at s3
  refine ⟨B, eB, ?_⟩
  rw [e]
  congr 2
  · refine gt_ext (by rw [s1, hI.fsize, ho]) (fun i hi => ?_)
    rw [s1, ho] at hi
    rw [(s3 i hi).1, gt_replicate hi, List.nil_append, hI.frag i hi]
    exact flat_congr (fun t ht => by simp only [FntCode.row, hrow t ht])
  · refine gt_ext (by rw [s2, hI.psize, ho]) (fun i hi => ?_)
    rw [s2, ho] at hi
    rw [(s3 i hi).2, hI.prop i hi]
    exact congrArg _ (marksOf_congr (fun t ht => by simp only [FntCode.row, hrow t ht]))

/-- C36 is violated by streams whose length is not a multiple of the word size: whatever they hold, the fragments written in packets are
longer than those written word by word. -/
theorem C36_short_word_differs {c : FntCode} (hc : c.Ok) (hs : c.sys = false) {data : Array (List Nat)} {L : Nat} (hd : c.Bytes data L)
    (hL : ¬ c.w ∣ L) {pkt : Nat} (hpkt : 0 < pkt) {R : RsFntObj} {C : CtxB} {H : Heap} (hr : c.Reachable pkt R C H) (mem mem' : Nat → Nat)
    (junk : Nat → Nat → Nat) :
    ∃ (B : FecBase) (frags frags' : Array (List Nat)) (fprops fprops' : Array Properties) (C' : CtxB) (H' : Heap),
      RsFnt.mkBase c.b c.db c.sys c.w c.k c.m pkt mem = .ok B ∧
      (R.fecV c.b).encode_streams_vertical C data (Array.replicate c.nOut []) (Array.replicate c.nOut .empty) junk H
        = .ok (frags.map some, fprops, C', H') ∧
      (RsFnt.fec B).encode_streams_horizontal data (Array.replicate c.nOut []) (Array.replicate c.nOut .empty) mem' = .ok (frags', fprops') ∧
      ∀ f, f < c.nOut → (gt frags' f).length < (gt frags f).length := by
  have hw0 := FntCode.Ok.wpos hc
  have hdp := padded_data hw0 hd
  obtain ⟨fr, pr, z1, _, z3, z4, _⟩ := C36_streams_unique_partial hc hdp
  obtain ⟨o, C', H', e, s1, s2, _⟩ := C36_streams_any_length hc hd ((z4 _ _).mpr ⟨rfl, rfl⟩) hpkt hr (outs := Array.replicate c.nOut [])
    (props := Array.replicate c.nOut .empty) junk (by simp) (by simp)
  have hdw : c.Data (c.whole data L) (L / c.w) := by
    refine ⟨by simp [FntCode.whole, hd.size], fun i hi x hx => ?_, fun i hi => ?_⟩
    · unfold FntCode.whole at hx
      rw [gt_map (by rw [hd.size]; exact hi)] at hx
      exact hd.bytes i hi x (List.mem_of_mem_take hx)
    · unfold FntCode.whole
      rw [gt_map (by rw [hd.size]; exact hi), List.length_take, hd.len i hi]
      exact min_eq_left (Nat.div_mul_le_self _ _)
  obtain ⟨fr', pr', y1, _, y3, y4, _⟩ := C36_streams_unique_partial hc hdw
  obtain ⟨B, eB, e'⟩ := C36_horizontal_any_length hc hs hd ((y4 _ _).mpr ⟨rfl, rfl⟩) pkt mem mem'
  have ho : o = (fr.map (fun s => s.take L)).map some := by
    apply gt_ext (by simp [s1, z1])
    intro i hi
    rw [gt_map (by rw [Array.size_map]; omega), gt_map (by omega), s2 i (by omega), gt_replicate (by omega), List.nil_append]
  rw [ho] at e
  refine ⟨B, _, fr', _, pr', C', H', eB, e, e', fun f hf => ?_⟩
  rw [y3 f hf, gt_map (by omega), List.length_take, z3 f hf, min_eq_left (FntCode.words_bounds hw0 L).1]
  exact lt_of_le_of_ne (Nat.div_mul_le_self _ _) (fun h => hL ⟨_, by rw [Nat.mul_comm]; exact h.symm⟩)

/-- words of two bytes, two data fragments and two parities, non-systematic -/
def code22 : FntCode := ⟨32, 64, 2, 2, 2, false⟩

theorem code22_ok : code22.Ok := ⟨Or.inl ⟨rfl, rfl⟩, Or.inr rfl, by decide, by decide, by decide, by decide⟩

theorem sq256 : (256 : ZMod 65537) ^ 2 = -1 := by decide

theorem low_bytes : ∀ g : ZMod 65537, g = 256 ∨ g = -256 → ∀ f : Nat, f = 1 ∨ f = 3 → ∀ a : Nat, a = 1 ∨ a = 2 →
    ((a : ZMod 65537) * g ^ f).val ≠ 2 ^ 16 ∧ ((a : ZMod 65537) * g ^ f).val % 256 = if (g = 256 ↔ f = 1) then 0 else 1 := by
  rintro g (rfl | rfl) f (rfl | rfl) a (rfl | rfl) <;> decide

theorem root4 {n : Nat} [Fact (Nat.Prime 65537)] {g : ZMod 65537} (h : IsPrimitiveRoot g n) (h1 : 4 ≤ n) (h2 : n < 8) :
    g = 256 ∨ g = -256 := by
  have hn : n ∣ 65536 := by
    apply h.dvd_of_pow_eq_one
    exact ZMod.pow_card_sub_one_eq_one (h.ne_zero (by omega))
  have h4 : n = 4 := by
    have : n = 4 ∨ n = 5 ∨ n = 6 ∨ n = 7 := by omega
    rcases this with rfl | rfl | rfl | rfl
    · rfl
    · exact absurd hn (by decide)
    · exact absurd hn (by decide)
    · exact absurd hn (by decide)
  subst h4
  have e1 : g ^ 4 = 1 := h.pow_eq_one
  have e2 : g ^ 2 ≠ 1 := h.pow_ne_one_of_pos_of_lt (by omega) (by omega)
  have e3 : (g ^ 2 - 1) * (g ^ 2 + 1) = 0 := by ring_nf; rw [e1]; ring
  rcases mul_eq_zero.mp e3 with e | e
  · exact absurd (sub_eq_zero.mp e) e2
  · have h256 : (256 : ZMod 65537) ^ 2 = -1 := sq256
    have : (g - 256) * (g + 256) = 0 := by
      have : (g - 256) * (g + 256) = (g ^ 2 + 1) - ((256 : ZMod 65537) ^ 2 + 1) := by ring
      rw [this, e, h256]; ring
    rcases mul_eq_zero.mp this with h | h
    · exact Or.inl (sub_eq_zero.mp h)
    · exact Or.inr (eq_neg_of_add_eq_zero_left h)

/-- C23 is violated by streams whose length is not a multiple of the word size: two different data give the same fragments 1 and 3, so no
decoding from these two fragments, although they are `n_data`, recovers both. -/
theorem C23_short_word_lost {pkt : Nat} (hpkt : 0 < pkt) {R : RsFntObj} {C : CtxB} {H : Heap} (hr : code22.Reachable pkt R C H)
    (junk : Nat → Nat → Nat) :
    ∃ o o' q q' C1 C2 H1 H2,
      (R.fecV code22.b).encode_streams_vertical C #[[0], [1]] #[[], [], [], []] #[.empty, .empty, .empty, .empty] junk H = .ok (o, q, C1, H1) ∧
      (R.fecV code22.b).encode_streams_vertical C #[[0], [2]] #[[], [], [], []] #[.empty, .empty, .empty, .empty] junk H = .ok (o', q', C2, H2) ∧
      ∀ f, f = 1 ∨ f = 3 → gt o f = gt o' f ∧ gt q f = gt q' f := by
  obtain ⟨p, n, hp, g, r⟩ := FntCode.exists_root code22_ok
  have hpe : p = 65537 := r.ne
  subst hpe
  have hg := root4 r.root r.len r.lt
  have hb : ∀ a, a < 256 → code22.Bytes #[[0], [a]] 1 := by
    intro a ha
    refine ⟨rfl, fun i hi x hx => ?_, fun i hi => ?_⟩
    · have : i = 0 ∨ i = 1 := by
        have : i < 2 := hi
        omega
      rcases this with rfl | rfl
      · have : x = 0 := by simpa [gt] using hx
        omega
      · have : x = a := by simpa [gt] using hx
        omega
    · have : i = 0 ∨ i = 1 := by
        have : i < 2 := hi
        omega
      rcases this with rfl | rfl <;> rfl
  obtain ⟨o, q, C1, H1, e1, _, _, _, s1⟩ := (hr.inv hpkt r).encode_bytes hpkt (hb 1 (by decide)) junk (outs := #[[], [], [], []])
    (props := #[.empty, .empty, .empty, .empty]) rfl rfl
  obtain ⟨o', q', C2, H2, e2, _, _, _, s2⟩ := (hr.inv hpkt r).encode_bytes hpkt (hb 2 (by decide)) junk (outs := #[[], [], [], []])
    (props := #[.empty, .empty, .empty, .empty]) rfl rfl
  have hsym : ∀ a f : Nat, symbol g false 2 (rowAt 2 2 (gt #[[0], [a]]) 0) f = ((a : ZMod 65537) * g ^ f).val := by
    intro a f
    have hrow : rowAt 2 2 (gt #[[0], [a]]) 0 = #[0, a] := by
      apply gt_ext (by simp [rowAt])
      intro i hi
      have : i < 2 := by simpa [rowAt] using hi
      rw [rowAt_gt this]
      have : i = 0 ∨ i = 1 := by omega
      rcases this with rfl | rfl
      · rfl
      · show leVal (([a].drop 0).take 2) = a
        simp [leVal]
    unfold symbol rowPoly
    rw [hrow]
    simp [Finset.sum_range_succ, gt]
  have key : ∀ f, f = 1 ∨ f = 3 → ∀ a, a = 1 ∨ a = 2 →
      symbol g false 2 (rowAt 2 2 (gt #[[0], [a]]) 0) f ≠ 2 ^ 16 ∧
      symbol g false 2 (rowAt 2 2 (gt #[[0], [a]]) 0) f % 256 = if (g = 256 ↔ f = 1) then 0 else 1 := by
    intro f hf a ha
    rw [hsym]
    exact low_bytes g hg f hf a ha
  have hone : code22.words 1 = 1 := rfl
  refine ⟨o, o', q, q', C1, C2, H1, H2, e1, e2, fun f hf => ?_⟩
  have hf4 : f < code22.nOut := by
    show f < 4
    rcases hf with rfl | rfl <;> decide
  have k1 := key f hf 1 (Or.inl rfl)
  have k2 := key f hf 2 (Or.inr rfl)
  have st : ∀ a, symbol g false 2 (rowAt 2 2 (gt #[[0], [a]]) 0) f ≠ 2 ^ 16 →
      FntCode.stored g code22.w code22.sys code22.k (FntCode.row code22 #[[0], [a]] 0) f
        = symbol g false 2 (rowAt 2 2 (gt #[[0], [a]]) 0) f ∧
      FntCode.mark g code22.w code22.sys code22.k (FntCode.row code22 #[[0], [a]] 0) f = none :=
    fun a h => ⟨if_neg h, if_neg h⟩
  have fl : ∀ (F : Nat → Nat), (flat 2 F 1).take 1 = [F 0 % 256] := by
    intro F
    simp [flat, leBytes]
  have s1' := s1 f hf4
  have s2' := s2 f hf4
  rw [hone] at s1' s2'
  have m1 : ∀ (F : Nat → Option Nat), F 0 = none → marksOf F 1 = [] := by
    intro F h
    rw [marksOf_congr (g := fun _ => none) (fun t ht => by rw [show t = 0 by omega]; exact h)]
    have := marksOf_pad (f := fun _ => none) (T := 0) (d := 1) (fun _ _ => rfl)
    exact this
  refine ⟨?_, ?_⟩
  · rw [s1'.1, s2'.1]
    have e : code22.w = 2 := rfl
    rw [e, fl, fl]
    have w1 := (st 1 k1.1).1
    have w2 := (st 2 k2.1).1
    rw [e] at w1 w2
    rw [w1, w2, k1.2, k2.2]
  · rw [s1'.2, s2'.2, m1 _ (st 1 k1.1).2, m1 _ (st 2 k2.1).2]

/-- a reachable object of this code exists, in any packet size -/
example : ∃ R C H, code22.Reachable 8 R C H := by
  obtain ⟨H', R, e⟩ := C23_new code22_ok (simd := none) (by simp [FntCode.Builds]) 8 (fun _ => 0) (fun _ _ => 0) #[]
  exact ⟨R, _, H', .new ⟨none, by simp [FntCode.Builds], _, _, _, e⟩⟩

/-- three bytes in words of two -/
example : code22.Bytes #[[1, 2, 3], [4, 5, 6]] 3 ∧ ¬ code22.w ∣ 3 := by
  refine ⟨⟨rfl, fun i hi x hx => ?_, fun i hi => ?_⟩, by decide⟩
  · have : i = 0 ∨ i = 1 := by
      have : i < 2 := hi
      omega
    rcases this with rfl | rfl <;> simp [gt] at hx <;> omega
  · have : i = 0 ∨ i = 1 := by
      have : i < 2 := hi
      omega
    rcases this with rfl | rfl <;> rfl

end Quad.Props
