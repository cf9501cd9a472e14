import Verif.Lemmas.FecAnyMarks
import Verif.Lemmas.FecNf4
import Verif.Spec.AnyLanes

/-!
# Decoding of fragments and properties with any contents, packed Fermat code
-/

namespace Quad
open Finset Polynomial Spec

/-- the mark seen on the way -/
theorem walk_flag (P : Properties) (t : Nat) :
    (if P.sort.is_marked (walk P.sort t) t then P.sort.marker (walk P.sort t) else 0) = flagAt P t := by
  have hp := P.sort_perm
  have hs := P.sort_lex
  have hc : ∀ s, (P.sort.props.map Prod.fst).count s = (P.props.map Prod.fst).count s := fun s => (hp.map _).count_eq s
  unfold flagAt
  rcases walk_spec hs t with ⟨h1, h2⟩ | ⟨⟨s, h1, h1'⟩, x, R, h2, h3⟩
  · rw [if_pos (show ∀ s, s < t → _ from fun s hs => by rw [← hc]; exact h1 s hs)]
    by_cases hm : P.sort.is_marked (walk P.sort t) t = true
    · rw [if_pos hm]
      obtain ⟨m, R, e⟩ := (is_marked_drop _ _ _).mp hm
      rw [marker_drop e]
      have hmin : ((P.props.filter (fun q => q.1 = t)).map Prod.snd).min? = some m := by
        rw [List.min?_eq_some_iff]
        refine ⟨List.mem_map.mpr ⟨(t, m), List.mem_filter.mpr ⟨hp.mem_iff.mp ?_, by simp⟩, rfl⟩, fun b hb => ?_⟩
        · refine List.mem_of_mem_drop (i := walk P.sort t) ?_
          rw [e]; simp
        · obtain ⟨q, hq, rfl⟩ := List.mem_map.mp hb
          obtain ⟨hq1, hq2⟩ := List.mem_filter.mp hq
          have hq2 : q.1 = t := by simpa using hq2
          have hin : q ∈ (t, m) :: R := by
            rw [← e, h2]
            exact List.mem_filter.mpr ⟨hp.mem_iff.mpr hq1, by simp [hq2]⟩
          rcases List.mem_cons.mp hin with rfl | hr
          · exact le_rfl
          · have hpw : ((t, m) :: R).Pairwise lexLe := by rw [← e]; exact hs.drop
            have := (List.pairwise_cons.mp hpw).1 q hr
            unfold lexLe at this
            simp only at this
            omega
      rw [hmin]; rfl
    · rw [if_neg hm]
      have hnil : P.props.filter (fun q => q.1 = t) = [] := by
        rw [List.filter_eq_nil_iff]
        intro q hq hqt
        have hqt : q.1 = t := by simpa using hqt
        apply hm
        have hin : q ∈ P.sort.props.drop (walk P.sort t) := by
          rw [h2]; exact List.mem_filter.mpr ⟨hp.mem_iff.mpr hq, by simp [hqt]⟩
        cases hR : P.sort.props.drop (walk P.sort t) with
        | nil => rw [hR] at hin; simp at hin
        | cons x R =>
          have hx : x ∈ P.sort.props.filter (fun x => decide (t ≤ x.1)) := by rw [← h2, hR]; simp
          have x2' : t ≤ x.1 := by simpa using (List.mem_filter.mp hx).2
          have hpw : (x :: R).Pairwise lexLe := by rw [← hR]; exact hs.drop
          have hxt : x.1 = t := by
            rw [hR] at hin
            rcases List.mem_cons.mp hin with rfl | hr
            · exact hqt
            · have := (List.pairwise_cons.mp hpw).1 q hr
              unfold lexLe at this
              omega
          rw [is_marked_drop]
          exact ⟨x.2, R, by rw [hR, ← hxt]⟩
      rw [hnil]; rfl
  · rw [if_neg, if_neg]
    · intro h
      have := h s h1
      rw [hc] at h1'
      omega
    · rw [is_marked_drop, h2]
      rintro ⟨m, R', e⟩
      injection e with e _
      rw [e] at h3
      exact absurd h3 (lt_irrefl _)

namespace Spec.IsNf4
open NF4
variable {N : NF4} {b n : Nat} {simd : Option (Nat × (Nat → Nat))}

/-- packing with any flag: the lanes above `n`, that a vectorised `pack` may set, do not count in a product -/
theorem packFlag_any (H : IsNf4 N b n simd) {a : Nat} (flag : Nat) (ha : a < 2 ^ (16 * n)) :
    ∀ d, Packed n d → N.mul (N.packFlag a flag) d = N.mul (NF4.word 32 n (fun l => if flag.testBit l then 65536 else lane16 a l)) d := by
  intro d hd
  have hlt' : ∀ l, (if flag.testBit l then 65536 else lane16 a l) < 65537 := by
    intro l
    split
    · norm_num
    · have := lane16_lt a l; omega
  have hlt : ∀ l, (if flag.testBit l then 65536 else lane16 a l) < 2 ^ 32 := fun l => lt_trans (hlt' l) (by norm_num)
  by_cases hs : N.simd.isSome
  · have hs' := hs
    rw [H.ns] at hs'
    have hn4 := H.le4 hs'
    obtain ⟨⟨R, hi⟩, e⟩ := Option.isSome_iff_exists.mp hs'
    have hB4 : Nf4Build 128 4 simd := by
      have := H.build.vec R hi e
      refine ⟨by norm_num, by norm_num, by norm_num, fun R' hi' h => ?_⟩
      exact ⟨rfl, (H.build.vec R' hi' h).2⟩
    obtain ⟨N4, _, H4⟩ := Props.C15_constructor hB4
    have hmul : ∀ x y, N.mul x y = N4.mul x y := by
      intro x y
      unfold NF4.mul
      rw [H.ns, H4.ns, e]
    have hpf : N.packFlag a flag = NF4.word 32 4 (fun l => if flag.testBit l then 65536 else lane16 a l) := by
      unfold NF4.packFlag
      rw [if_pos hs]
      have hb : ∀ f : Nat, (f &&& 1 ≠ 0) ↔ f.testBit 0 = true := by
        intro f; rw [Nat.and_one_is_mod, Nat.testBit_zero]; simp
      unfold packFlagV
      simp only [hb, Nat.testBit_shiftRight, extract16_eq a 0 (by omega), extract16_eq a 1 (by omega), extract16_eq a 2 (by omega),
        extract16_eq a 3 (by omega), ← Nat.shiftRight_add, Nat.reduceAdd]
      rw [set_epi32_eq (f := fun l => if flag.testBit l then 65536 else lane16 a l) (fun l _ => hlt l)]
    have hp4 := word_packed (n := 4) (f := fun l => if flag.testBit l then 65536 else lane16 a l) (fun l _ => hlt' l)
    have hpn := word_packed (n := n) (f := fun l => if flag.testBit l then 65536 else lane16 a l) (fun l _ => hlt' l)
    have up : ∀ x, Packed n x → Packed 4 x := by
      intro x hx
      refine ⟨lt_of_lt_of_le hx.lt (Nat.pow_le_pow_right (by norm_num) (by omega)), fun l hl => ?_⟩
      by_cases h : l < n
      · exact hx.lane l h
      · have : lane32 x l = 0 := lane_oob hx.lt (by omega)
        rw [this]; norm_num
    rw [hpf, hmul, hmul, H4.mul_eq hp4.1 (up d hd), H4.mul_eq (up _ hpn.1) (up d hd)]
    refine word_congr (fun l hl => ?_)
    by_cases h : l < n
    · rw [hp4.2 l hl, hpn.2 l h]
    · have : lane32 d l = 0 := lane_oob hd.lt (by omega)
      rw [this, Nat.mul_zero, Nat.mul_zero]
  · have : N.packFlag a flag = NF4.word 32 n (fun l => if flag.testBit l then 65536 else lane16 a l) := by
      unfold NF4.packFlag
      rw [if_neg hs, packFlagLanes_eq, H.nn, H.expand32_eq (fun l _ => hlt l)]
    rw [this]

end Spec.IsNf4

namespace RsNf4
open NF4
variable {c : Code} {b lanes k m n len_2k : Nat} {simd : Option (Nat × (Nat → Nat))} {S : Fin lanes → c.base.F.Sim (ZMod 65537)}
  {g g2 : ZMod 65537} {okLen : Nat → Prop}

/-- the symbol in lane `l` of the word `x` with the mark `fl` -/
def laneVal (x fl l : Nat) : Nat := if fl.testBit l then 65536 else lane16 x l

theorem laneVal_lt (x fl l : Nat) : laneVal x fl l < 65537 := by
  unfold laneVal
  split
  · norm_num
  · have := IsNf4.lane16_lt x l; omega

/-- the word decoded for data `i` from the symbols `y l j` of the fragments `ids` -/
noncomputable def anyWord (lanes : Nat) (g : ZMod 65537) (k : Nat) (ids : Array Nat) (y : Nat → Nat → Nat) (i : Nat) : Nat :=
  NF4.word 16 lanes (fun l => ((MarkCode.interp g k ids (y l)).coeff i).val % 65536)

/-- decoding the words of a row -/
theorem dec_words (G : Good c b lanes simd k m S n len_2k g g2 okLen) {ids : Array Nat} {props : Array Properties} (mem : Nat → Nat)
    (hids : ValidIds k (k + m) ids) (hps : props.size = k + m) {W : Nat → Nat → Nat} (hW : ∀ i t, i < k → W i t < 256 ^ c.base.word_size) :
    ∃ (Gd : Ctx → Nat → Prop) (C : Ctx) (props' : Array Properties), (fec c).init_context_dec ids props mem = .ok (C, props') ∧ Gd C 0 ∧
      ∀ {t : Nat} {C : Ctx} {out words : Array Nat}, Gd C t → out.size = k → k ≤ words.size → (∀ i, i < k → gt words i = W i t) →
        ∃ C' r, (fec c).decode C out props' t words = .ok (C', r) ∧ r.size = k ∧ Gd C' (t + 1) ∧
          ∀ i, i < k → gt r i = anyWord lanes g k ids (fun l i => laneVal (W i t) (flagAt (gt props (gt ids i)) t) l) i := by
  haveI : Nonempty (Fin lanes) := ⟨⟨0, G.H.build.pos⟩⟩
  have hkd := G.n_data
  have hle := G.le
  have hn16 := G.n16
  have hids' : ValidIds k n ids := ⟨hids.size, hids.inj, fun i hi => by have := hids.lt i hi; omega⟩
  have hinj : Set.InjOn (fun i => gt ids i) (range k) :=
    fun i hi j hj he => hids.inj i j (by simpa using hi) (by simpa using hj) he
  obtain ⟨vx, evx, svx, hvx⟩ := forN_inv (n := c.base.n_data) (s := fresh mem c.base.n_data) (f := fun i vx => do
      let j ← rd ids i
      wr vx i (c.N.exp c.base.r (c.N.replicate j)))
    (I := fun t (vx : Array Nat) => vx.size = c.base.n_data ∧ ∀ i, i < t → gt vx i = c.N.exp c.base.r (c.N.replicate (gt ids i)))
    ⟨by simp [fresh], by simp⟩ (by
      rintro t vx ht ⟨i1, i2⟩
      have := hids.size
      refine ⟨_, by rw [rd_gt (a := ids) (by omega), ok_bind, wr_ok (by omega)], by simp [i1], fun i hi => ?_⟩
      rw [gt_set (by omega)]
      by_cases he : i = t
      · subst he; rw [if_pos rfl]
      · rw [if_neg he]; exact i2 i (by omega))
  have hvx' : ∀ (l : Fin lanes) i, i < k → (S l).V (gt vx i) ∧ (S l).φ (gt vx i) = g ^ gt ids i := by
    intro l i hi
    have hlt := hids'.lt i hi
    have he := Props.C15_exp G.H ((G.V l _).mp (G.r l).1) (c.N.replicate (gt ids i))
    rw [hvx i (by omega), G.V, G.φ]
    refine ⟨he.1, ?_⟩
    rw [he.2 l l.2, G.H.replicate_lane (by omega) l.2, ← G.φ, (G.r l).2]
  obtain ⟨C, eC, hC1, hC2⟩ := Ctx.mk'_spec G.env (ids := ids) (vx := vx) (props := props) mem hids.size hids'.lt hinj (by omega) hvx'
  have hsort : ∀ i, i < k → gt (props.map Properties.sort) (gt ids i) = (gt props (gt ids i)).sort := fun i hi =>
    gt_map (by rw [hps]; exact hids.lt i hi)
  refine ⟨fun C t => (∀ l, C.Good (S l) k n len_2k g g2 ids) ∧ C.props_indices.size = k + m ∧ ∀ i, i < k →
      gt C.props_indices (gt ids i) = walk (gt props (gt ids i)).sort t, C, props.map Properties.sort, ?_,
      ⟨hC2, by rw [hC1]; simp [hps], fun i hi => ?_⟩, ?_⟩
  · show init_context_dec c ids props mem = _
    unfold init_context_dec
    rw [evx, ok_bind, G.hn, hkd]
    exact eC
  · rw [hC1, gt_replicate (by rw [hps]; exact hids.lt i hi)]; rfl
  · rintro t C out words ⟨c1, c2, c3⟩ hout hws hwords
    have hidsC : C.fragments_ids = ids := (c1 ⟨0, G.H.build.pos⟩).idsEq
    obtain ⟨pi, ws, ep, p1, p2, p3⟩ := prep_spec c (C := C) (props := props.map Properties.sort)
      (off := t) (words := words) (M := k + m) (by rw [hidsC, hkd]; exact hids) (by simp [hps]) (by omega) (by omega)
    rw [hidsC, hkd] at p3
    set y : Nat → Nat → Nat := fun l i => laneVal (W i t) (flagAt (gt props (gt ids i)) t) l with hy
    set ws' : Array Nat := Array.ofFn (fun i : Fin k => NF4.word 32 lanes (fun l => y l i)) with hws'
    have gws' : ∀ i, i < k → gt ws' i = NF4.word 32 lanes (fun l => y l i) := fun i hi => by rw [hws', gt_ofFn hi]
    have hpk : ∀ i, Packed lanes (NF4.word 32 lanes (fun l => y l i)) ∧ ∀ l, l < lanes → lane32 (NF4.word 32 lanes (fun l => y l i)) l = y l i :=
      fun i => word_packed (fun l _ => laneVal_lt _ _ _)
    have c1' : ∀ l, ({ C with props_indices := pi } : Ctx).Good (S l) k n len_2k g g2 ids := fun l =>
      ⟨(c1 l).len, (c1 l).idsEq, (c1 l).invSize, (c1 l).inv, (c1 l).ASize, (c1 l).A, (c1 l).v1n, (c1 l).v2n, (c1 l).v12, (c1 l).v22⟩
    have hcong : c.base.decode_apply { C with props_indices := pi } out ws = c.base.decode_apply { C with props_indices := pi } out ws' := by
      have hiv := (c1' ⟨0, G.H.build.pos⟩).invSize
      refine FecBase.decode_apply_congr (by omega) (by simp [hws']; omega) (by omega) (fun i hi => ?_)
      rw [hkd] at hi
      have hd : Packed lanes (gt C.inv_A_i i) := (G.V ⟨0, G.H.build.pos⟩ _).mp ((c1' ⟨0, G.H.build.pos⟩).inv i hi).1
      have hv := pack_row G (hW i t hi)
      rw [gws' i hi, (p3 i hi).1, hsort i hi, c3 i hi, hwords i hi, G.mul]
      have hfl := walk_flag (gt props (gt ids i)) t
      by_cases hmk : (gt props (gt ids i)).sort.is_marked (walk (gt props (gt ids i)).sort t) t = true
      · rw [if_pos hmk] at hfl ⊢
        rw [hfl, G.H.packFlag_any _ hv.1 _ hd]
        rfl
      · rw [if_neg hmk] at hfl ⊢
        have : c.N.pack (W i t) = NF4.word 32 lanes (fun l => y l i) := by
          rw [G.H.pack_eq hv.1]
          refine word_congr (fun l _ => ?_)
          rw [hy]
          simp only [laneVal]
          rw [← hfl]; simp
        rw [this]
    have hdec : ∀ l, _ := fun l => FecBase.decode_apply_spec (B := c.base) (S := S l) G.env.kpos G.env.kn G.env.k2 hkd
      (G.env.fft l) (G.env.fft_2k l) (c1' l) hids.size hids'.lt hinj (output := out) (words := ws') hout
      (by simp [hws']) (fun i hi => by
        rw [gws' i hi, G.V]
        exact (hpk i).1)
    obtain ⟨C', r, er, sr, pr, _⟩ := hdec ⟨0, G.H.build.pos⟩
    have hxinj : Set.InjOn (fun i => g ^ gt ids i) (Finset.range k) := by
      intro i hi j hj he
      have hi' : i < k := by simpa using hi
      have hj' : j < k := by simpa using hj
      exact hids.inj i j hi' hj' ((G.env.fft ⟨0, G.H.build.pos⟩).root.pow_inj (hids'.lt i hi') (hids'.lt j hj') he)
    have hr : ∀ l, C'.Good (S l) k n len_2k g g2 ids ∧ ∀ i, i < k →
        Packed lanes (gt r i) ∧ (lane32 (gt r i) l : ZMod 65537) = (MarkCode.interp g k ids (y l)).coeff i := by
      intro l
      obtain ⟨C2, r2, er2, _, _, gr, vr, hr⟩ := hdec l
      rw [er] at er2
      obtain ⟨rfl, rfl⟩ := Prod.mk.inj (Except.ok.inj er2)
      refine ⟨gr, fun i hi => ⟨(G.V l _).mp (vr i hi), ?_⟩⟩
      rw [← G.φ]
      obtain ⟨d1, d2, _⟩ := MarkCode.interp_spec (g := g) hxinj (y l)
      refine hr (MarkCode.interp g k ids (y l)) d1 (fun i hi => ?_) i hi
      rw [gws' i hi, G.φ, (hpk i).2 l l.2]
      exact (d2 i hi).symm
    obtain ⟨r', er', sr', hr'⟩ := unpackWords_spec c (words := r) (by omega)
    refine ⟨C', r', ?_, by omega, ⟨fun l => (hr l).1, ?_, ?_⟩, ?_⟩
    · show decode c C out _ t words = _
      unfold decode decode_apply
      rw [ep, ok_bind]
      simp only
      rw [hcong, er, ok_bind, er', ok_bind]
      rfl
    · rw [pr]; show pi.size = _; omega
    · intro i hi
      rw [pr]
      show gt pi (gt ids i) = _
      rw [(p3 i hi).2, hsort i hi, c3 i hi, walk]
    · intro i hi
      rw [hr' i (by omega), G.H.unpack_eq ((hr ⟨0, G.H.build.pos⟩).2 i hi).1]
      unfold anyWord
      refine word_congr (fun l hl => ?_)
      obtain ⟨q1, q2⟩ := (hr ⟨l, hl⟩).2 i hi
      have hlt := q1.lane l hl
      rw [← q2, ZMod.val_natCast_of_lt hlt]
      split <;> omega

/-- decoding of fragments and properties that may contain anything -/
theorem decodesLanes (G : Good c b lanes simd k m S n len_2k g g2 okLen) {T : Nat} {datas pars outs : Array (Option (List Nat))}
    {props : Array Properties} (mem : Nat → Nat) (h : AnyWords false c.base.word_size k (k + m) T datas pars)
    (hq : props.size = k + m) (ho : outs.size = k) : DecodesLanes (fec c) g c.base.word_size k T datas pars outs props mem := by
  have hkp : 0 < k := G.env.kpos
  set E := fec c with hE
  have hb : E.base = c.base := rfl
  set w := c.base.word_size with hw
  have hwl : w / 2 = lanes := by have : w = 2 * lanes := G.wl; omega
  have hsys : E.base.sys = false := G.sys
  have hkd : E.base.n_data = k := G.n_data
  have hno : E.base.n_outputs = k + m := G.n_outputs
  have hws : E.base.word_size = w := rfl
  have hidl : E.base.idList (datas.map Option.isSome) (pars.map Option.isSome) = picked k pars := by
    have := ids_picked E.base (datas := datas) (pars := pars) (fun hs => by rw [hsys] at hs; cases hs) (by rw [hno]; exact h.psize)
    change E.base.idList _ _ = _ at this
    rw [hsys, hkd] at this
    exact this
  have hplen : (picked k pars).length = k := by
    unfold picked
    rw [List.length_take]
    have h1 : (present (pars.map Option.isSome) pars.size).length = nAvail pars := present_eq_avail pars rfl
    have h2 : present (pars.map Option.isSome) pars.size = (List.range pars.size).filter (fun i => (gt pars i).isSome) := by
      unfold present
      refine List.filter_congr fun i hi => ?_
      rw [gt_map (List.mem_range.mp hi)]
    rw [← h2, h1]
    have : k ≤ nAvail pars := h.enough
    omega
  have hmem : ∀ i, i < k → gt (picked k pars).toArray i ∈ picked k pars := fun i hi =>
    (Gf2nRec.getD_mem_iff hplen).mp ⟨i, hi, rfl⟩
  have hpl : (present (pars.map Option.isSome) (k + m)).length = nAvail pars := present_eq_avail pars h.psize
  have hbytes : ∀ f, ∀ x ∈ (gt pars f).getD [], x < 256 := by
    intro f x hx
    by_cases hg : f < pars.size
    · rw [gt_eq hg] at hx
      exact h.bytes _ (Array.getElem_mem_toList hg) x hx
    · have h0 : gt pars f = none := by
        rw [gt, Array.getD_eq_getD_getElem?, Array.getElem?_eq_none (by omega)]; rfl
      rw [h0] at hx
      simp at hx
  set ids := (picked k pars).toArray with hids
  set W : Nat → Nat → Nat := fun i t => wordAt w ((gt pars (gt ids i)).getD []) t with hW
  set y : Nat → Nat → Nat → Nat := fun t l i => laneVal (W i t) (flagAt (gt props (gt ids i)) t) l with hy
  set rows : Nat → Array Nat := fun t => Array.ofFn (fun i : Fin k => anyWord lanes g k ids (y t) i) with hrows
  have hrg : ∀ t i, i < k → gt (rows t) i = anyWord lanes g k ids (y t) i := fun t i hi => by rw [hrows]; exact gt_ofFn hi
  have hfs : ∀ f, Fec.fragStream E.base.sys E.base.n_data datas pars f = (gt pars f).getD [] := fun f => by
    unfold Fec.fragStream; rw [hsys]; rfl
  obtain ⟨hv, res, e, sr, hr⟩ := Fec.decode_streams_horizontal_any (E := E) G.hw (by omega)
    (by rw [hb, G.code_len, G.n_data, G.n_parities]) (T := T) (rows := rows) (datas := datas) (pars := pars) (outs := outs) (props := props) mem
    (fun hs => by rw [hsys] at hs; cases hs) (by rw [hno]; exact h.psize) (by rw [hno]; exact hq) (by rw [hkd]; exact ho)
    (by
      unfold FecBase.dataList
      rw [hsys, if_neg (by simp), hkd]
      simp; omega)
    (by
      rw [hno, hpl, hkd]
      have : k ≤ nAvail pars := h.enough
      omega)
    (by
      rw [hidl, hkd, hws]
      intro i hi
      have := hfs (gt ids i)
      rw [hkd] at this
      rw [this]
      exact h.full _ (hmem i hi))
    (by
      rw [hidl, hkd, hws]
      obtain ⟨j, hj, hl⟩ := h.last
      obtain ⟨i, hi, e⟩ := (Gf2nRec.getD_mem_iff hplen).mpr hj
      have := hfs (gt ids i)
      rw [hkd] at this
      exact ⟨i, hi, by rw [this, e]; exact hl⟩)
    (by
      rw [hidl, hsys, if_neg (by simp), hkd, hno]
      intro hv
      obtain ⟨Gd, C, p', e1, g0, hd⟩ := dec_words G (props := props) mem hv hq (W := W) (fun i t hi => wordAt_lt (hbytes _) t)
      refine ⟨Gd, C, p', e1, g0, fun {t C out words} _ a2 a3 a4 a5 => ?_⟩
      obtain ⟨C', r, q1, q2, q3, q4⟩ := hd a2 a3 (by rw [a4, hb, G.code_len]; simp) (fun i hi => by
        rw [a5 i hi, hws]
        have := hfs (gt ids i)
        rw [hkd, hsys] at this
        rw [this])
      exact ⟨C', r, q1, q2, q3, fun i hi => by rw [q4 i hi, hrg t i hi]⟩)
  rw [hidl, hkd, hsys, if_neg (by simp), hno] at hv
  rw [hkd] at sr hr
  rw [hws] at hr
  set o : Array (List Nat) := Array.ofFn (fun i : Fin k => flat w (fun t => gt (rows t) i) T) with hout
  have hgo : ∀ i, i < k → gt o i = flat w (fun t => gt (rows t) i) T := fun i hi => by rw [hout, gt_ofFn hi]
  have hxinj : Set.InjOn (fun i => g ^ gt ids i) (Finset.range k) := by
    intro i hi j hj he
    have hi' : i < k := by simpa using hi
    have hj' : j < k := by simpa using hj
    have := G.le
    exact hv.inj i j hi' hj' ((G.env.fft ⟨0, G.H.build.pos⟩).root.pow_inj (by have := hv.lt i hi'; omega) (by have := hv.lt j hj'; omega) he)
  have hsym : ∀ i t l, i < k → laneAt w ((gt pars (gt ids i)).getD []) (gt props (gt ids i)) t l = y t l i := by
    intro i t l hi
    unfold laneAt
    rw [Fec.wordAt_eq]
    rfl
  refine ⟨res, o, e, sr, by simp [hout], fun i hi => ⟨by rw [hgo i hi, flat_length], fun x hx => ?_⟩, fun i hi => ?_, fun t l ht hl => ?_⟩
  · rw [hgo i hi] at hx
    obtain ⟨t, _, hh⟩ := List.mem_flatMap.mp hx
    exact leBytes_lt _ _ x hh
  · rw [hr i hi, hgo i hi]
  · obtain ⟨d1, d2, d3⟩ := MarkCode.interp_spec (g := g) hxinj (y t l)
    refine ⟨MarkCode.interp g k ids (y t l), d1, fun j hj => ?_, fun Q hQ hq => d3 Q hQ fun i hi => ?_, fun i hi => ?_⟩
    · obtain ⟨i, hi, rfl⟩ := (Gf2nRec.getD_mem_iff hplen).mpr hj
      refine (d2 i hi).trans (congrArg Nat.cast (hsym i t l hi).symm)
    · exact (hq _ (hmem i hi)).trans (congrArg Nat.cast (hsym i t l hi))
    · have hlt : anyWord lanes g k ids (y t) i < 256 ^ w := by
        have := NF4.word_lt (s := 16) (n := lanes) (f := fun l => ((MarkCode.interp g k ids (y t l)).coeff i).val % 65536)
          (fun l _ => Nat.mod_lt _ (by norm_num))
        refine lt_of_lt_of_le this (le_of_eq ?_)
        rw [show (256 : Nat) = 2 ^ 8 by norm_num, ← pow_mul, show w = 2 * lanes from G.wl]; congr 1; ring
      rw [Fec.wordAt_eq, hgo i hi, MarkCode.wordAt_flat_mod ht, hrg t i hi, Nat.mod_eq_of_lt hlt]
      exact NF4.word_lane (s := 16) (f := fun l => ((MarkCode.interp g k ids (y t l)).coeff i).val % 65536)
        (fun l _ => Nat.mod_lt _ (by norm_num)) (by omega)

/-- the symbols of an encoding -/
theorem encodesLanes (G : Good c b lanes simd k m S n len_2k g g2 okLen) : EncodesLanes (fec c) g c.base.word_size k (k + m) := by
  have hE := hspec G
  have hkd : (fec c).base.n_data = k := G.n_data
  have hno : (fec c).base.n_outputs = k + m := G.n_outputs
  have hwl : c.base.word_size / 2 = lanes := by rw [G.wl]; omega
  intro data T mem hd
  obtain ⟨fr, pr, e, s1, s2, hf⟩ := Fec.encode_streams_horizontal_spec hE (data := data)
    (outs := Array.replicate (fec c).base.n_outputs []) (props := Array.replicate (fec c).base.n_outputs .empty) mem (T := T)
    (by rw [hkd]; exact hd.size) (by simp) (by simp) (by rw [hkd]; exact hd.bytes) (by rw [hkd]; exact ⟨hd.full, hd.last⟩)
  rw [hno] at e s1 s2 hf
  refine ⟨fr, pr, e, s1, s2, fun f hf' => ?_, fun t l ht hl => ?_⟩
  · rw [(hf f hf').1, gt_replicate hf', List.nil_append, flat_length]
    refine ⟨rfl, fun x hx => ?_⟩
    obtain ⟨t, _, hh⟩ := List.mem_flatMap.mp hx
    exact leBytes_lt _ _ x hh
  rw [hwl] at hl
  set a := rowAt c.base.word_size k (gt data) t with ha
  have hrow : IsRow c.base.word_size k a := rowAt_isRow hd.bytes t
  refine ⟨lanePoly a l, ?_, fun i hi => ?_, fun f hf' => ?_⟩
  · rw [degree_lt_iff_coeff_zero]
    intro j hj
    rw [lanePoly_coeff, if_neg (by rw [hrow.1]; omega)]
  · rw [lanePoly_coeff, if_pos (by rw [hrow.1]; exact hi), ha, rowAt_gt hi, Fec.wordAt_eq]
  · have hpa := sym_packed lanes g a f
    rw [← hpa.2 l hl]
    congr 1
    have hpu := Props.C16_pack_unpack G.H hpa.1
    have hst : Spec.word c.base.word_size (gt fr f) t = stored c.N lanes g a f := by
      rw [Fec.wordAt_eq, (hf f hf').1, gt_replicate hf', List.nil_append]
      rw [hkd]
      exact wordAt_flat ht (hE.lt (by rw [hkd]; exact hrow) (by rw [hno]; exact hf'))
    have hfl : flagAt (gt pr f) t = (c.N.unpack (sym lanes g a f)).2 := by
      have hsrt := marksOf_sorted (fun t => markOf c.N lanes g (rowAt c.base.word_size k (gt data) t) f) T
      have hnd : ((gt pr f).props.map Prod.fst).Nodup := by
        rw [(hf f hf').2, hkd]
        exact List.Pairwise.map Prod.fst (fun _ _ h => Nat.ne_of_lt h) hsrt
      unfold flagAt
      rw [if_pos (fun s _ => List.nodup_iff_count_le_one.mp hnd s)]
      have hmemp : ∀ q, q ∈ (gt pr f).props ↔ q.1 < T ∧ markOf c.N lanes g (rowAt c.base.word_size k (gt data) q.1) f = some q.2 := by
        intro q
        rw [(hf f hf').2, hkd]
        exact mem_marksOf
      by_cases hm : (c.N.unpack (sym lanes g a f)).2 > 0
      · have hmk : markOf c.N lanes g a f = some (c.N.unpack (sym lanes g a f)).2 := by unfold markOf; rw [if_pos hm]
        have hmin : (((gt pr f).props.filter (fun q => q.1 = t)).map Prod.snd).min? = some (c.N.unpack (sym lanes g a f)).2 := by
          rw [List.min?_eq_some_iff]
          refine ⟨List.mem_map.mpr ⟨(t, _), List.mem_filter.mpr ⟨(hmemp _).mpr ⟨ht, hmk⟩, by simp⟩, rfl⟩, fun b hb => ?_⟩
          obtain ⟨q, hq, rfl⟩ := List.mem_map.mp hb
          obtain ⟨hq1, hq2⟩ := List.mem_filter.mp hq
          have hq2 : q.1 = t := by simpa using hq2
          have h3 := ((hmemp q).mp hq1).2
          rw [hq2, ← ha, hmk] at h3
          exact (Option.some.inj h3).le
        rw [hmin]; rfl
      · have hmk : markOf c.N lanes g a f = none := by unfold markOf; rw [if_neg hm]
        have hnil : (gt pr f).props.filter (fun q => q.1 = t) = [] := by
          rw [List.filter_eq_nil_iff]
          intro q hq hqt
          have hqt : q.1 = t := by simpa using hqt
          have h3 := ((hmemp q).mp hq).2
          rw [hqt, ← ha, hmk] at h3
          cases h3
        rw [hnil]
        show 0 = _
        omega
    unfold laneAt
    rw [hst, hfl]
    have key : ∀ st fl, lane32 (NF4.word 32 lanes (fun l => laneVal st fl l)) l = laneVal st fl l :=
      fun st fl => (word_packed (fun l _ => laneVal_lt _ _ _)).2 l hl
    have h5 := G.H.packFlag_eq hpu.1 hpu.2.1
    rw [hpu.2.2] at h5
    exact (congrArg (fun x => lane32 x l) h5).trans (key _ _)

end RsNf4
end Quad
