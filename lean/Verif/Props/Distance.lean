import Verif.Lemmas.Distance
import Verif.Props.NoPackets
import Verif.Props.Session
import Verif.Props.BenchRun

/-!
# C77 and C78: the fragments of different data

`FarApart` (Spec/Distance.lean) is C77: where two data differ in word `t`, their fragments differ in word `t` in more than `m` places.
`AgreeWithData` is C78: where two data agree in word `t`, so do their fragments, whatever the rest of the data.
-/

namespace Quad.Props
open Quad Quad.Spec Quad.Gf2nRec

private theorem fnt_mds {c : FntCode} (hc : c.Ok) {p n : Nat} [Fact p.Prime] {g : ZMod p} (r : c.Root p n g) :
    Mds c.sys c.w c.k c.nOut (FntCode.stored g c.w c.sys c.k) (FntCode.mark g c.w c.sys c.k) := by
  obtain ⟨H, R, e⟩ := C23_new hc (simd := none) (by simp [FntCode.Builds]) 1 (fun _ => 0) (fun _ _ => 0) #[]
  have hr : c.Reachable 1 R _ H := .new ⟨none, by simp [FntCode.Builds], _, _, _, e⟩
  refine mds_of_dec (fun datas pars props => ((R.fecV c.b).decode_streams_vertical datas pars props (Array.replicate c.k (some []))
    (fun _ => 0) (fun _ _ => 0) H).map (fun x => (x.1, x.2.1))) ?_
  intro a ha datas pars props h1 h2 h3 hd hp hav hge
  set data : Array (List Nat) := Array.ofFn (fun i : Fin c.k => leBytes c.w (gt a i)) with hdata
  have gd : ∀ i, i < c.k → gt data i = leBytes c.w (gt a i) := fun i hi => by rw [hdata, gt_ofFn hi]
  have hD : c.Data data 1 := ⟨by simp [hdata], fun i hi => by rw [gd i hi]; exact leBytes_lt _ _, fun i hi => by rw [gd i hi]; simp⟩
  obtain ⟨fr, fp, s1, s2, _, u, _⟩ := C36_streams_unique_partial hc hD
  have hE : c.Encoded data fr fp := (u _ _).mpr ⟨rfl, rfl⟩
  have hI := hE.isCode hD r
  have hrow : FntCode.row c data 0 = a := by
    refine gt_ext (by simp [FntCode.row, rowAt, ha.1]) (fun i hi => ?_)
    have hi' : i < c.k := by simpa [FntCode.row, rowAt] using hi
    show gt (rowAt c.w c.k (gt data) 0) i = _
    rw [rowAt_gt hi', gd i hi']
    unfold wordAt
    rw [Nat.zero_mul, List.drop_zero, List.take_of_length_le (by simp), leVal_leBytes (ha.2 i hi')]
  obtain ⟨o, H', eo, zo, q, _⟩ := C23_streams hc hD hE (by omega) hr (datas := datas) (pars := pars) (props := props)
    (outs := Array.replicate c.k (some []))
    ⟨fun _ => h1, h2, h3, fun _ i s hi h => by rw [gd i hi]; exact hd i s hi h, fun f s hf h => by
      obtain ⟨q1, q2⟩ := hp f s hf h
      constructor
      · rw [q1, hI.frag f hf, flat_succ, flat_zero, List.nil_append, hrow]
      · rw [q2, hI.prop f hf]
        exact congrArg Properties.mk (marksOf_congr (fun t ht => by
          have : t = 0 := by omega
          subst this
          rw [hrow]))⟩ (fun _ => 0) (fun _ _ => 0) (by simp) (fun _ => hav) hge
  refine ⟨o, by simp only [eo]; rfl, fun i hi => ?_⟩
  rw [q i hi, gt_replicate hi, gd i hi]
  simp

private theorem fnt_lt {c : FntCode} {p n : Nat} [Fact p.Prime] {g : ZMod p} (r : c.Root p n g) {a : Array Nat} {f : Nat} (ha : IsRow c.w c.k a)
    (hf : f < c.nOut) : FntCode.stored g c.w c.sys c.k a f < 256 ^ c.w := by
  obtain ⟨_, R, _, _, I⟩ := r.new none (by simp [FntCode.Builds]) 1 (fun _ => 0) (fun _ _ => 0) #[]
  obtain ⟨_, _, V, _⟩ := I.ex
  have h1 : (R.fecV c.b).base.word_size = c.w := I.w
  have h2 : (R.fecV c.b).base.n_data = c.k := I.k
  have h3 : (R.fecV c.b).base.n_outputs = c.nOut := I.out
  have := V.lt (a := a) (f := f) (by rw [h1, h2]; exact ha) (by rw [h3]; exact hf)
  rwa [h1] at this

theorem fnt_codeOf {c : FntCode} {p n : Nat} [Fact p.Prime] {g : ZMod p} (r : c.Root p n g) {data frags : Array (List Nat)}
    {fprops : Array Properties} {T : Nat} (hd : c.Data data T) (he : c.Encoded data frags fprops) :
    CodeOf c.w c.k c.nOut (FntCode.stored g c.w c.sys c.k) (FntCode.mark g c.w c.sys c.k) data T frags fprops :=
  let h := he.isCode hd r
  ⟨h.fsize, h.psize, h.frag, h.prop⟩

/-- C77 for the Fermat number codes, systematic or not. -/
theorem C77_fnt {c : FntCode} (hc : c.Ok) {data data' frags frags' : Array (List Nat)} {fprops fprops' : Array Properties} {T T' : Nat}
    (hd : c.Data data T) (hd' : c.Data data' T') (he : c.Encoded data frags fprops) (he' : c.Encoded data' frags' fprops') :
    FarApart c.w c.k c.nOut c.m c.sys T T' data data' frags frags' fprops fprops' := by
  obtain ⟨p, n, _, g, r⟩ := FntCode.exists_root hc
  exact farApart (fnt_mds hc r) (fun {a f} ha hf => fnt_lt r ha hf) rfl (fnt_codeOf r hd he) (fnt_codeOf r hd' he') hd.bytes hd'.bytes
    (fun i hi => (hd.len i hi).ge) (fun i hi => (hd'.len i hi).ge)

/-- C78 for the Fermat number codes. -/
theorem C78_fnt {c : FntCode} (hc : c.Ok) {data data' frags frags' : Array (List Nat)} {fprops fprops' : Array Properties} {T T' : Nat}
    (hd : c.Data data T) (hd' : c.Data data' T') (he : c.Encoded data frags fprops) (he' : c.Encoded data' frags' fprops') :
    AgreeWithData c.w c.k c.nOut T T' data data' frags frags' fprops fprops' := by
  obtain ⟨p, n, _, g, r⟩ := FntCode.exists_root hc
  exact agreeWithData (fun {a f} ha hf => fnt_lt r ha hf) (fnt_codeOf r hd he) (fnt_codeOf r hd' he') hd.bytes hd'.bytes
    (fun i hi => (hd.len i hi).ge) (fun i hi => (hd'.len i hi).ge)

private theorem gf2n_units {k m : Nat} {ids : Array Nat} (hv : ValidIds k (k + m) ids) (hm : m ≤ 2) :
    ((Finset.range k).filter (fun a => k ≤ gt ids a)).card ≤ 2 := by
  have hinj : Set.InjOn (gt ids) ((Finset.range k).filter (fun a => k ≤ gt ids a)) := by
    intro a ha a' ha' hE
    exact hv.inj a a' (by simpa using (Finset.mem_filter.1 ha).1) (by simpa using (Finset.mem_filter.1 ha').1) hE
  have hsub : ((Finset.range k).filter (fun a => k ≤ gt ids a)).image (gt ids) ⊆ Finset.Ico k (k + m) := by
    intro x hx
    obtain ⟨a, ha, rfl⟩ := Finset.mem_image.1 hx
    obtain ⟨p1, p2⟩ := Finset.mem_filter.1 ha
    exact Finset.mem_Ico.2 ⟨p2, hv.lt a (Finset.mem_range.1 p1)⟩
  have := Finset.card_le_card hsub
  rw [Finset.card_image_of_injOn hinj, Nat.card_Ico] at this
  omega

private theorem far_gf2n {b w k m : Nat} (h : Gf2nParams b w k m) (type : RsGf2n.MatType) (mem : Nat → Nat) (junk : Nat → Nat → Nat)
    (junk3 : Nat → Nat → Nat → Nat) :
    ∃ E, RsGf2n.mk' b w k m type mem junk junk3 = .ok E ∧ AnyTwo E w k m (AgreeWithData w k m) ∧
      ((type = .vandermonde ∨ m ≤ 2) → AnyTwo E w k m (FarApart w k m m true)) := by
  obtain ⟨hws, hw16⟩ := Gf2nRec.gf2n_wordSize h
  haveI := fact_of (size_of h.field.size)
  obtain ⟨O, B, mat, f, e, i1, v1, hu, _⟩ := RsGf2n.mk'_spec h.field hw16 h.hk h.len type mem junk junk3
  have H := RsGf2n.hspec B.full hws (fun a => by show a < 2 ^ (8 * w) ↔ _; rw [Nat.pow_mul]) h.hk i1 v1
  refine ⟨_, e, H.anyTwo_local rfl rfl rfl, fun ht => H.anyTwo_far (fun ids hv => hu ids hv ?_) rfl rfl rfl rfl rfl⟩
  rcases ht with ht | ht
  · exact .inl ht
  · exact .inr (.inr (.inr (gf2n_units hv ht)))

/-- C77 for the Vandermonde code. -/
theorem C77_vandermonde {b w k m : Nat} (h : Gf2nParams b w k m) (mem : Nat → Nat) (junk : Nat → Nat → Nat) (junk3 : Nat → Nat → Nat → Nat) :
    ∃ E, RsGf2n.mk' b w k m .vandermonde mem junk junk3 = .ok E ∧ AnyTwo E w k m (FarApart w k m m true) :=
  let ⟨E, e, _, h⟩ := far_gf2n h .vandermonde mem junk junk3
  ⟨E, e, h (.inl rfl)⟩

/-- C77 for the Cauchy code with at most two parities.  Missing: three or more, for which different data can share `n_data` fragments
(`C28_three_losses_fail`). -/
theorem C77_cauchy_partial {b w k m : Nat} (h : Gf2nParams b w k m) (hm : m ≤ 2) (mem : Nat → Nat) (junk : Nat → Nat → Nat)
    (junk3 : Nat → Nat → Nat → Nat) :
    ∃ E, RsGf2n.mk' b w k m .cauchy mem junk junk3 = .ok E ∧ AnyTwo E w k m (FarApart w k m m true) :=
  let ⟨E, e, _, h⟩ := far_gf2n h .cauchy mem junk junk3
  ⟨E, e, h (.inr hm)⟩

/-- C77 fails for the Cauchy code with three parities or more, for the same losses as `C28_three_losses_fail`: there are different data whose
fragments differ in no more than `m` places. -/
theorem C77_cauchy_close {b w k m : Nat} (h : Gf2nParams b w k m) (hm : 3 ≤ m) {j : Nat} (hj : 0 < j) (hjk : j + 2 < k) (hbit : (j + m) % 4 < 2)
    (mem : Nat → Nat) (junk : Nat → Nat → Nat) (junk3 : Nat → Nat → Nat → Nat) :
    ∃ E, RsGf2n.mk' b w k m .cauchy mem junk junk3 = .ok E ∧ ¬ AnyTwo E w k m (FarApart w k m m true) := by
  obtain ⟨hws, hw16⟩ := Gf2nRec.gf2n_wordSize h
  haveI := fact_of (size_of h.field.size)
  obtain ⟨O, B, mat, f, e, i1, v1, _, hc⟩ := RsGf2n.mk'_spec h.field hw16 h.hk h.len .cauchy mem junk junk3
  have hV : ∀ a, B.sim.V a ↔ a < 256 ^ w := fun a => by show a < 2 ^ (8 * w) ↔ _; rw [Nat.pow_mul]
  have H := RsGf2n.hspec B.full hws hV h.hk i1 v1
  refine ⟨_, e, fun hfar => ?_⟩
  have hnu := Mat.cauchy_not_unit (S := B.sim) (m := m) (k := k) (f := f) B.full (fun t ht => show t < 2 ^ (8 * w) by have := h.len; omega)
    (fun i j hi hj => RsGf2n.bin_ne B h.len hi hj) (by haveI := B.good.H.char; exact CharTwo.two_eq_zero) hm (hc rfl) (j := j) (j' := j + 2)
    hj (by omega) (by omega) hjk (by
      rw [show j + 2 + m = j + m + 2 by omega]
      exact RsGf2n.bin_add_two B (by have := h.len; omega) (by have := h.len; omega) hbit) (by omega)
    (ids := fun a => if a = 0 then k else if a = j then k + 1 else if a = j + 2 then k + 2 else a)
    (fun a ha => by split_ifs <;> omega)
  rw [isUnit_iff_ne_zero, not_not] at hnu
  obtain ⟨v, hv0, hv⟩ := Matrix.exists_mulVec_eq_zero_iff.2 hnu
  choose pre hpre using B.good.H.surj
  let v' : Nat → BinK (8 * w) := fun i => if hi : i < k then v ⟨i, hi⟩ else 0
  let a : Array Nat := Array.ofFn (fun i : Fin k => pre (v' i))
  have ga : ∀ i, i < k → gt a i = pre (v' i) := fun i hi => gt_ofFn hi
  have va : ∀ i, i < k → B.sim.V (gt a i) ∧ B.sim.φ (gt a i) = v' i := fun i hi => by rw [ga i hi]; exact hpre (v' i)
  have hrow : ∀ c, c < k → ∑ t ∈ Finset.range k, B.sim.φ (Mat.pick k f
      (fun a => if a = 0 then k else if a = j then k + 1 else if a = j + 2 then k + 2 else a) c t) * v' t = 0 := by
    intro c hck
    have := congrFun hv ⟨c, hck⟩
    rw [Matrix.mulVec, dotProduct] at this
    rw [← Fin.sum_univ_eq_sum_range (fun t => B.sim.φ (Mat.pick k f _ c t) * v' t), ← show _ = (0 : BinK (8 * w)) from this]
    refine Finset.sum_congr rfl fun t _ => ?_
    simp only [v', dif_pos t.2]
    rfl
  have hz : ∀ c, c < k → c ≠ 0 → c ≠ j → c ≠ j + 2 → v' c = 0 := by
    intro c hck c0 cj cj'
    have := hrow c hck
    rw [Finset.sum_eq_single c] at this
    · simpa only [Mat.pick, if_neg c0, if_neg cj, if_neg cj', if_pos hck, if_true, B.full.v1.2, one_mul] using this
    · intro t _ ht
      simp only [Mat.pick, if_neg c0, if_neg cj, if_neg cj', if_pos hck, if_neg ht, if_neg (Ne.symm ht), B.sim.zero.2, zero_mul]
    · intro h; exact absurd (Finset.mem_range.2 hck) h
  have hp : ∀ i, i < 3 → ∑ t ∈ Finset.range k, B.sim.φ (f i t) * v' t = 0 := by
    have key : ∀ c i, c < k → (if c = 0 then k else if c = j then k + 1 else if c = j + 2 then k + 2 else c) = k + i →
        ∑ t ∈ Finset.range k, B.sim.φ (f i t) * v' t = 0 := by
      intro c i hck hi
      have := hrow c hck
      simp only [Mat.pick, hi, if_neg (show ¬ k + i < k by omega), Nat.add_sub_cancel_left] at this
      exact this
    intro i hi
    have : i = 0 ∨ i = 1 ∨ i = 2 := by omega
    rcases this with rfl | rfl | rfl
    · exact key 0 0 (by omega) (by simp)
    · exact key j 1 (by omega) (by rw [if_neg (by omega), if_pos rfl])
    · exact key (j + 2) 2 (by omega) (by rw [if_neg (by omega), if_neg (by omega), if_pos rfl])
  have hz0 : ∀ i, gt (Array.replicate k 0 : Array Nat) i = 0 := fun i => by
    by_cases hi : i < k
    · exact gt_replicate hi
    · exact gt_oob (by simp; omega)
  have ra : IsRow w k a := ⟨by simp [a], fun i hi => (hV _).1 (va i hi).1⟩
  have rz : IsRow w k (Array.replicate k 0) := ⟨by simp, fun i _ => by rw [hz0]; positivity⟩
  have hsame : ∀ i, i < 3 → RsGf2n.stored O.gf mat m a i = RsGf2n.stored O.gf mat m (Array.replicate k 0) i := by
    intro i hi
    obtain ⟨p1, p2⟩ := RsGf2n.stored_spec (S := B.sim) h.hk i1 v1 ra.1 (fun t ht => (va t ht).1) (i := i) (by omega)
    obtain ⟨q1, q2⟩ := RsGf2n.stored_spec (S := B.sim) h.hk i1 v1 rz.1 (fun t _ => by rw [hz0]; exact B.sim.zero.1) (i := i) (by omega)
    refine B.full.inj p1 q1 ?_
    rw [p2, q2, Finset.sum_eq_zero (s := Finset.range k) (f := fun t => B.sim.φ (f i t) * B.sim.φ (gt (Array.replicate k 0) t))
      (fun t _ => by rw [hz0, B.sim.zero.2, mul_zero]), ← hp i hi]
    exact Finset.sum_congr rfl fun t ht => by rw [(va t (Finset.mem_range.1 ht)).2]
  refine H.not_far rfl rfl rfl ra rz (fun hE => hv0 (funext fun i => ?_)) ?_ hfar
  · have := (va i.1 i.2).2
    rw [hE, hz0, B.sim.zero.2] at this
    simp only [v', dif_pos i.2] at this
    exact this.symm
  · have c1 : (List.range k).countP (fun i => decide (¬ gt a i = gt (Array.replicate k 0 : Array Nat) i)) ≤ 3 := by
      rw [← card_filter_range k (fun i => ¬ gt a i = gt (Array.replicate k 0 : Array Nat) i)]
      refine le_trans (Finset.card_le_card (t := {0, j, j + 2}) fun i hi => ?_) (Finset.card_le_three)
      obtain ⟨h1, h2⟩ := Finset.mem_filter.1 hi
      have h1 := Finset.mem_range.1 h1
      by_contra hn
      simp only [Finset.mem_insert, Finset.mem_singleton, not_or] at hn
      refine h2 (B.full.inj (va i h1).1 (by rw [hz0]; exact B.sim.zero.1) ?_)
      rw [(va i h1).2, hz0, B.sim.zero.2, hz i h1 hn.1 hn.2.1 hn.2.2]
    have c2 : (List.range m).countP (fun i => decide (¬ (RsGf2n.stored O.gf mat m a i = RsGf2n.stored O.gf mat m (Array.replicate k 0) i ∧
        (none : Option Nat) = none))) ≤ m - 3 := by
      rw [← card_filter_range m (fun i => ¬ (RsGf2n.stored O.gf mat m a i = RsGf2n.stored O.gf mat m (Array.replicate k 0) i ∧
        (none : Option Nat) = none))]
      refine le_trans (Finset.card_le_card (t := Finset.Ico 3 m) fun i hi => ?_) (by simp)
      obtain ⟨h1, h2⟩ := Finset.mem_filter.1 hi
      refine Finset.mem_Ico.2 ⟨?_, Finset.mem_range.1 h1⟩
      by_contra hn
      exact h2 ⟨hsame i (by omega), rfl⟩
    exact (Nat.add_le_add c1 c2).trans (by omega)

/-- C78 for the codes with matrices over GF(2^n). -/
theorem C78_matrix {b w k m : Nat} (h : Gf2nParams b w k m) (type : RsGf2n.MatType) (mem : Nat → Nat) (junk : Nat → Nat → Nat)
    (junk3 : Nat → Nat → Nat → Nat) : ∃ E, RsGf2n.mk' b w k m type mem junk junk3 = .ok E ∧ AnyTwo E w k m (AgreeWithData w k m) :=
  let ⟨E, e, h, _⟩ := far_gf2n h type mem junk junk3
  ⟨E, e, h⟩

private theorem far_fnt_words {c : FntCode} (hc : c.Ok) (hs : c.sys = false) (pkt : Nat) (mem : Nat → Nat) :
    ∃ B, RsFnt.mkBase c.b c.db c.sys c.w c.k c.m pkt mem = .ok B ∧ AnyTwo (RsFnt.fec B) c.w c.k (c.k + c.m) (AgreeWithData c.w c.k (c.k + c.m)) ∧
      AnyTwo (RsFnt.fec B) c.w c.k (c.k + c.m) (FarApart c.w c.k (c.k + c.m) c.m false) := by
  obtain ⟨p, n, _, g, r⟩ := FntCode.exists_root hc
  obtain ⟨B, e, hw, hk, hn, H⟩ := r.horiz hs pkt mem
  obtain ⟨_, R, _, he, I⟩ := r.new none (by simp [FntCode.Builds]) pkt mem (fun _ _ => 0) #[]
  have hsys : B.sys = false := by
    rw [e] at he
    rw [Except.ok.inj he, I.sys, hs]
  have hn' := hn.trans (show c.nOut = c.k + c.m by unfold FntCode.nOut; rw [hs]; rfl)
  exact ⟨B, e, H.anyTwo_local hw hk hn', H.anyTwo_far (fun _ => trivial) hw hk hn' hsys rfl⟩

/-- C77 for the non-systematic Fermat number code word by word. -/
theorem C77_fnt_words {c : FntCode} (hc : c.Ok) (hs : c.sys = false) (pkt : Nat) (mem : Nat → Nat) :
    ∃ B, RsFnt.mkBase c.b c.db c.sys c.w c.k c.m pkt mem = .ok B ∧
      AnyTwo (RsFnt.fec B) c.w c.k (c.k + c.m) (FarApart c.w c.k (c.k + c.m) c.m false) :=
  let ⟨B, e, _, h⟩ := far_fnt_words hc hs pkt mem
  ⟨B, e, h⟩

/-- C78 for the non-systematic Fermat number code word by word. -/
theorem C78_fnt_words {c : FntCode} (hc : c.Ok) (hs : c.sys = false) (pkt : Nat) (mem : Nat → Nat) :
    ∃ B, RsFnt.mkBase c.b c.db c.sys c.w c.k c.m pkt mem = .ok B ∧
      AnyTwo (RsFnt.fec B) c.w c.k (c.k + c.m) (AgreeWithData c.w c.k (c.k + c.m)) :=
  let ⟨B, e, h, _⟩ := far_fnt_words hc hs pkt mem
  ⟨B, e, h⟩

private theorem far_multiplicative {b w k m : Nat} (h : Gf2nFftParams b w k m) (mem : Nat → Nat) (junk : Nat → Nat → Nat)
    (junk3 : Nat → Nat → Nat → Nat) :
    ∃ B, RsGf2nFft.mkBase b w k m mem junk junk3 = .ok B ∧ AnyTwo (RsGf2nFft.fec B) w k (k + m) (AgreeWithData w k (k + m)) ∧
      AnyTwo (RsGf2nFft.fec B) w k (k + m) (FarApart w k (k + m) m false) := by
  obtain ⟨K, _, B, S, n, l2, g2, e, hw, G⟩ := RsGf2nFft.mkBase_spec h mem junk junk3
  subst hw
  have H := FftCode.hspec G (RsGf2nFft.is_fec B) (RsGf2nFft.post_spec B _) (RsGf2nFft.prep_spec B _)
  exact ⟨B, e, H.anyTwo_local rfl G.n_data G.n_outputs, H.anyTwo_far (fun _ => trivial) rfl G.n_data G.n_outputs G.sys rfl⟩

/-- C77 for the code on the multiplicative FFT over GF(2^n). -/
theorem C77_multiplicative {b w k m : Nat} (h : Gf2nFftParams b w k m) (mem : Nat → Nat) (junk : Nat → Nat → Nat)
    (junk3 : Nat → Nat → Nat → Nat) :
    ∃ B, RsGf2nFft.mkBase b w k m mem junk junk3 = .ok B ∧ AnyTwo (RsGf2nFft.fec B) w k (k + m) (FarApart w k (k + m) m false) :=
  let ⟨B, e, _, h⟩ := far_multiplicative h mem junk junk3
  ⟨B, e, h⟩

/-- C78 for the code on the multiplicative FFT over GF(2^n). -/
theorem C78_multiplicative {b w k m : Nat} (h : Gf2nFftParams b w k m) (mem : Nat → Nat) (junk : Nat → Nat → Nat)
    (junk3 : Nat → Nat → Nat → Nat) :
    ∃ B, RsGf2nFft.mkBase b w k m mem junk junk3 = .ok B ∧ AnyTwo (RsGf2nFft.fec B) w k (k + m) (AgreeWithData w k (k + m)) :=
  let ⟨B, e, h, _⟩ := far_multiplicative h mem junk junk3
  ⟨B, e, h⟩

private theorem far_gfp {b db w k m : Nat} (h : GfpParams b db w k m) (mem : Nat → Nat) :
    ∃ c, RsGfpFft.mkBase b db w k m mem = .ok c ∧ AnyTwo (RsGfpFft.fec b c) w k (k + m) (AgreeWithData w k (k + m)) ∧
      AnyTwo (RsGfpFft.fec b c) w k (k + m) (FarApart w k (k + m) m false) := by
  obtain ⟨p, _, B, S, n, l2, g2, e, hw, hp, G⟩ := RsGfpFft.mkBase_spec h mem
  subst hw
  have H := FftCode.hspec G (RsGfpFft.is_fec b (B, 256 ^ B.word_size)) (RsGfpFft.post_spec (by positivity) (G.code_len.trans G.n_outputs.symm))
    (RsGfpFft.prep_spec hp)
  exact ⟨(B, 256 ^ B.word_size), e, H.anyTwo_local rfl G.n_data G.n_outputs,
    H.anyTwo_far (fun _ => trivial) rfl G.n_data G.n_outputs G.sys rfl⟩

/-- C77 for the code on FFTs over GF(p).  Missing: the parameters `C31_recovery_partial` leaves out. -/
theorem C77_gfp_partial {b db w k m : Nat} (h : GfpParams b db w k m) (mem : Nat → Nat) :
    ∃ c, RsGfpFft.mkBase b db w k m mem = .ok c ∧ AnyTwo (RsGfpFft.fec b c) w k (k + m) (FarApart w k (k + m) m false) :=
  let ⟨c, e, _, h⟩ := far_gfp h mem
  ⟨c, e, h⟩

/-- C78 for the code on FFTs over GF(p).  Missing: the parameters `C31_recovery_partial` leaves out. -/
theorem C78_gfp_partial {b db w k m : Nat} (h : GfpParams b db w k m) (mem : Nat → Nat) :
    ∃ c, RsGfpFft.mkBase b db w k m mem = .ok c ∧ AnyTwo (RsGfpFft.fec b c) w k (k + m) (AgreeWithData w k (k + m)) :=
  let ⟨c, e, h, _⟩ := far_gfp h mem
  ⟨c, e, h⟩

private theorem far_additive {b w k m : Nat} (h : Gf2nFftAddParams b w k m) (mem : Nat → Nat) (junk : Nat → Nat → Nat)
    (junk3 : Nat → Nat → Nat → Nat) :
    ∃ c, RsGf2nFftAdd.mkCode b w k m mem junk junk3 = .ok c ∧ AnyTwo (RsGf2nFftAdd.fec c) w k (k + m) (AgreeWithData w k (k + m)) ∧
      AnyTwo (RsGf2nFftAdd.fec c) w k (k + m) (FarApart w k (k + m) m false) := by
  obtain ⟨K, _, c, S, n, pt, e, G, _⟩ := RsGf2nFftAdd.mkCode_spec h mem junk junk3
  have H := RsGf2nFftAdd.hspec' G
  exact ⟨c, e, H.anyTwo_local G.word G.n_data G.n_outputs, H.anyTwo_far' (RsGf2nFftAdd.mds G) G.word G.n_data G.n_outputs rfl⟩

/-- C77 for the code on the additive FFT, also where decoding fails (`C30_additive_decoding_asserts`). -/
theorem C77_additive {b w k m : Nat} (h : Gf2nFftAddParams b w k m) (mem : Nat → Nat) (junk : Nat → Nat → Nat)
    (junk3 : Nat → Nat → Nat → Nat) :
    ∃ c, RsGf2nFftAdd.mkCode b w k m mem junk junk3 = .ok c ∧ AnyTwo (RsGf2nFftAdd.fec c) w k (k + m) (FarApart w k (k + m) m false) :=
  let ⟨c, e, _, h⟩ := far_additive h mem junk junk3
  ⟨c, e, h⟩

/-- C78 for the code on the additive FFT. -/
theorem C78_additive {b w k m : Nat} (h : Gf2nFftAddParams b w k m) (mem : Nat → Nat) (junk : Nat → Nat → Nat)
    (junk3 : Nat → Nat → Nat → Nat) :
    ∃ c, RsGf2nFftAdd.mkCode b w k m mem junk junk3 = .ok c ∧ AnyTwo (RsGf2nFftAdd.fec c) w k (k + m) (AgreeWithData w k (k + m)) :=
  let ⟨c, e, h, _⟩ := far_additive h mem junk junk3
  ⟨c, e, h⟩

private theorem far_nf4_words {b w k m pkt : Nat} {simd : Option (Nat × (Nat → Nat))} (h : Nf4Params b simd w k m) (mem : Nat → Nat) :
    ∃ c, RsNf4.mkCode b simd w k m pkt mem = .ok c ∧ AnyTwo (RsNf4.fec c) w k (k + m) (AgreeWithData w k (k + m)) ∧
      AnyTwo (RsNf4.fec c) w k (k + m) (FarApart w k (k + m) m false) := by
  obtain ⟨c, e, hw, S, n, l2, g, g2, okLen, G⟩ := RsNf4.mkCode_spec (pkt := pkt) h mem
  have H := RsNf4.hspec G
  exact ⟨c, e, H.anyTwo_local hw G.n_data G.n_outputs, H.anyTwo_far (fun _ => trivial) hw G.n_data G.n_outputs G.sys rfl⟩

/-- C77 for the packed Fermat code word by word. -/
theorem C77_nf4_words {b w k m pkt : Nat} {simd : Option (Nat × (Nat → Nat))} (h : Nf4Params b simd w k m) (mem : Nat → Nat) :
    ∃ c, RsNf4.mkCode b simd w k m pkt mem = .ok c ∧ AnyTwo (RsNf4.fec c) w k (k + m) (FarApart w k (k + m) m false) :=
  let ⟨c, e, _, h⟩ := far_nf4_words (pkt := pkt) h mem
  ⟨c, e, h⟩

/-- C78 for the packed Fermat code word by word. -/
theorem C78_nf4_words {b w k m pkt : Nat} {simd : Option (Nat × (Nat → Nat))} (h : Nf4Params b simd w k m) (mem : Nat → Nat) :
    ∃ c, RsNf4.mkCode b simd w k m pkt mem = .ok c ∧ AnyTwo (RsNf4.fec c) w k (k + m) (AgreeWithData w k (k + m)) :=
  let ⟨c, e, h, _⟩ := far_nf4_words (pkt := pkt) h mem
  ⟨c, e, h⟩

theorem nf4_code {w k m : Nat} (hw : w = 2 ∨ w = 4 ∨ w = 8) (hk : 0 < k) (hm : 0 < m) (hlen : k + m ≤ 65536) (htwo : 2 * k ≤ 65536) :
    ∃ st mk, (∀ {a f}, IsRow w k a → f < k + m → st a f < 256 ^ w) ∧ Mds false w k (k + m) st mk ∧
      ∀ {data frags : Array (List Nat)} {fprops : Array Properties} {T : Nat}, StreamData w k data T → Nf4Encoded w k m data frags fprops →
        CodeOf w k (k + m) st mk data T frags fprops := by
  obtain ⟨n, g, hg, hn, hall⟩ := RsNf4Obj.mk'_spec hk hm hlen
  obtain ⟨R, e, _, e1, _, S, n', l2, g2, o1, o2, o3, G⟩ := hall (b := 128) (pkt := 1) (reg := none) (hi := fun _ => 0) (by simp [Nf4Reg])
    ⟨hw, ⟨.inr (.inr rfl), by omega, by omega, by simp [RsNf4Obj.nf4Simd]⟩, hk, hm, hlen, htwo⟩ (fun _ => 0)
  have H := RsNf4.hspec G.good
  rw [RsNf4Obj.stored_eq G.good.H, RsNf4Obj.markOf_eq G.good.H] at H
  have ek : (RsNf4.fec ⟨R.code.base, R.N⟩).base.n_data = k := G.good.n_data
  have ew : (RsNf4.fec ⟨R.code.base, R.N⟩).base.word_size = w := e1
  have eo : (RsNf4.fec ⟨R.code.base, R.N⟩).base.n_outputs = k + m := G.good.n_outputs
  have es : (RsNf4.fec ⟨R.code.base, R.N⟩).base.sys = false := G.good.sys
  refine ⟨RsNf4Obj.cstored (w / 2) g, RsNf4Obj.cmark (w / 2) g, fun {a f} ha hf => ?_, ?_, ?_⟩
  · have := H.lt (a := a) (f := f) (by rw [ew, ek]; exact ha) (by rw [eo]; exact hf)
    rwa [ew] at this
  · have := H.mds (fun _ => trivial)
    rwa [ew, ek, eo, es] at this
  · rintro data frags fprops T hd ⟨b', reg', hi', pkt', mem', R', enc, enc', junk, Hp, Hp', h1, h2, h3, h4, h5⟩
    obtain ⟨fr, fp, hI⟩ := CodeOf.exists w k (k + m) (RsNf4Obj.cstored (w / 2) g) (RsNf4Obj.cmark (w / 2) g) data T
    obtain ⟨R, e, _, e1, e2, S, n', l2, g2, o1, o2, o3, G⟩ := hall (pkt := pkt') (hi := hi') h1 ⟨hw, h2, hk, hm, hlen, htwo⟩ mem'
    rw [h4] at e
    cases e
    have hV := RsNf4Obj.vspec (b := b') G
    rw [RsNf4Obj.stored_eq G.good.H, RsNf4Obj.markOf_eq G.good.H] at hV
    have hP := PacketCode.of hV (by show 0 < R'.code.base.pkt_size; omega) G.good.sys e1 G.good.n_data G.good.n_outputs hd hI
    obtain ⟨o, c', Hx, ee, s, ho⟩ := hP.encode enc (Array.replicate (k + m) []) (Array.replicate (k + m) .empty) junk Hp (by simp) (by simp)
    rw [h5] at ee
    simp only [Except.ok.injEq, Prod.mk.injEq] at ee
    obtain ⟨rfl, rfl, _, _⟩ := ee
    rw [Array.size_map] at s
    have : frags = fr := by
      refine gt_ext (by rw [s, hI.fsize]) (fun i hi => ?_)
      have h6 := ho i (by omega)
      rw [gt_map hi, gt_replicate (by omega), List.nil_append] at h6
      exact Option.some.inj h6
    rw [this]
    exact hI

/-- C77 for the packed Fermat code in packets. -/
theorem C77_nf4 {w k m : Nat} (hw : w = 2 ∨ w = 4 ∨ w = 8) (hk : 0 < k) (hm : 0 < m) (hlen : k + m ≤ 65536) (htwo : 2 * k ≤ 65536)
    {data data' frags frags' : Array (List Nat)} {fprops fprops' : Array Properties} {T T' : Nat} (hd : StreamData w k data T)
    (hd' : StreamData w k data' T') (he : Nf4Encoded w k m data frags fprops) (he' : Nf4Encoded w k m data' frags' fprops') :
    FarApart w k (k + m) m false T T' data data' frags frags' fprops fprops' := by
  obtain ⟨st, mk, lt, hM, h⟩ := nf4_code hw hk hm hlen htwo
  exact farApart hM lt rfl (h hd he) (h hd' he') hd.bytes hd'.bytes (fun i hi => (hd.len i hi).ge) (fun i hi => (hd'.len i hi).ge)

/-- C78 for the packed Fermat code in packets. -/
theorem C78_nf4 {w k m : Nat} (hw : w = 2 ∨ w = 4 ∨ w = 8) (hk : 0 < k) (hm : 0 < m) (hlen : k + m ≤ 65536) (htwo : 2 * k ≤ 65536)
    {data data' frags frags' : Array (List Nat)} {fprops fprops' : Array Properties} {T T' : Nat} (hd : StreamData w k data T)
    (hd' : StreamData w k data' T') (he : Nf4Encoded w k m data frags fprops) (he' : Nf4Encoded w k m data' frags' fprops') :
    AgreeWithData w k (k + m) T T' data data' frags frags' fprops fprops' := by
  obtain ⟨st, mk, lt, _, h⟩ := nf4_code hw hk hm hlen htwo
  exact agreeWithData lt (h hd he) (h hd' he') hd.bytes hd'.bytes (fun i hi => (hd.len i hi).ge) (fun i hi => (hd'.len i hi).ge)

/-! ### the hypotheses are met -/

/-- two data of four words that differ in word 3 of one fragment -/
example : ∃ data' frags frags' fprops fprops', code1.Data data1 4 ∧ code1.Data data' 4 ∧ code1.Encoded data1 frags fprops ∧
    code1.Encoded data' frags' fprops' ∧ (∃ i, i < code1.k ∧ ¬ SameData code1.w 3 i data1 data') ∧
    ∀ i, i < code1.k → SameData code1.w 2 i data1 data' := by
  have hd : code1.Data #[[1, 2, 3, 4], [5, 6, 7, 254], [9, 10, 11, 12]] 4 := ⟨rfl, by decide, by decide⟩
  obtain ⟨fr, fp, _, _, _, u, _⟩ := C36_streams_unique_partial code1_ok data1_ok
  obtain ⟨fr', fp', _, _, _, u', _⟩ := C36_streams_unique_partial code1_ok hd
  exact ⟨_, fr, fr', fp, fp', data1_ok, hd, (u _ _).2 ⟨rfl, rfl⟩, (u' _ _).2 ⟨rfl, rfl⟩, ⟨1, by decide, by decide⟩, by decide⟩

example : Gf2nData 2 3 #[[1, 2, 3, 4], [5, 6, 7, 8, 9], [0, 0, 255, 255]] 2 ∧ Gf2nData 2 3 #[[1, 2, 3, 4], [5, 6, 7, 7], [0, 0, 255, 255]] 2 ∧
    ∃ i, i < 3 ∧ ¬ SameData 2 1 i #[[1, 2, 3, 4], [5, 6, 7, 8, 9], [0, 0, 255, 255]] #[[1, 2, 3, 4], [5, 6, 7, 7], [0, 0, 255, 255]] :=
  ⟨⟨rfl, by decide, by decide, 0, by decide, by decide⟩, ⟨rfl, by decide, by decide, 0, by decide, by decide⟩, 1, by decide, by decide⟩

/-- four data and three parity fragments for `C77_cauchy_close` -/
example : Gf2nParams 32 1 4 3 ∧ 0 < 1 ∧ 1 + 2 < 4 ∧ (1 + 3) % 4 < 2 :=
  ⟨⟨by decide, ⟨by decide, by decide, by decide, by decide⟩, by decide, by decide⟩, by decide, by decide, by decide⟩

end Quad.Props
