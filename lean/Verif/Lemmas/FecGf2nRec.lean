import Verif.Lemmas.FecGf2n
import Verif.Lemmas.FecUb
import Verif.Spec.FecGf2n

/-!
# Recovery of the matrix codes on streams
-/

namespace Quad.Gf2nRec
open Quad Quad.Spec RsGf2n

theorem gf2n_wordSize {b w k m : Nat} (h : Gf2nParams b w k m) : WordSize w ∧ w ≤ 16 := by
  have := h.hw
  simp only [List.mem_cons, List.not_mem_nil, or_false] at this
  unfold WordSize
  omega

theorem getD_mem_iff {l : List Nat} {k x : Nat} (hl : l.length = k) : (∃ a, a < k ∧ gt l.toArray a = x) ↔ x ∈ l := by
  subst hl
  constructor
  · rintro ⟨a, ha, e⟩
    rw [Fec.gt_toArray, List.getD_eq_getElem _ _ ha] at e
    rw [← e]; exact List.getElem_mem ha
  · intro h
    obtain ⟨a, ha, e⟩ := List.mem_iff_getElem.mp h
    exact ⟨a, ha, by rw [Fec.gt_toArray, List.getD_eq_getElem _ _ ha]; exact e⟩

theorem isSome_mask_iff {a : Array (Option (List Nat))} {i n : Nat} (h : a.size = n) (hi : i < n) :
    gt (a.map Option.isSome) i = true ↔ gt a i ≠ none := by
  rw [gt_eq (by simpa using (by omega : i < a.size)), gt_eq (by omega), Array.getElem_map]
  exact Option.isSome_iff_ne_none

/-- the fragments selected by a systematic decoder -/
theorem sel_facts {B : FecBase} {k m : Nat} (hs : B.sys = true) (hk : B.n_data = k) (hm : B.n_outputs = m)
    {datas pars : Array (Option (List Nat))} (hd : datas.size = k) (hp : pars.size = m) (hav : k ≤ nAvail datas + nAvail pars) :
    (B.dataList (datas.map Option.isSome)).length = nAvail datas ∧
    (present (pars.map Option.isSome) B.n_outputs).length = nAvail pars ∧ nAvail datas ≤ k ∧
    (B.idList (datas.map Option.isSome) (pars.map Option.isSome)).length = k ∧
    (∀ i, i < k → (i ∈ B.idList (datas.map Option.isSome) (pars.map Option.isSome) ↔ gt datas i ≠ none)) ∧
    (∀ f, k + f ∈ B.idList (datas.map Option.isSome) (pars.map Option.isSome) ↔
      f ∈ (present (pars.map Option.isSome) m).take (k - nAvail datas)) ∧
    (∀ a, a < nAvail datas → gt (B.idList (datas.map Option.isSome) (pars.map Option.isSome)).toArray a < k) := by
  have h1 : B.dataList (datas.map Option.isSome) = present (datas.map Option.isSome) k := by
    unfold FecBase.dataList; rw [hs, hk]; rfl
  have h2 : (present (datas.map Option.isSome) k).length = nAvail datas := present_eq_avail datas hd
  have h3 : (present (pars.map Option.isSome) m).length = nAvail pars := present_eq_avail pars hp
  have h4 : nAvail datas ≤ k := h2 ▸ present_length_le _ _
  have h5 : B.parList (datas.map Option.isSome) (pars.map Option.isSome) =
      (present (pars.map Option.isSome) m).take (k - nAvail datas) := by
    unfold FecBase.parList; rw [h1, h2, hk, hm]
  have h6 : B.idList (datas.map Option.isSome) (pars.map Option.isSome) = present (datas.map Option.isSome) k ++
      ((present (pars.map Option.isSome) m).take (k - nAvail datas)).map (fun i => k + i) := by
    unfold FecBase.idList
    rw [h1, h5, hs, hk]; rfl
  refine ⟨by rw [h1, h2], by rw [hm, h3], h4, ?_, ?_, ?_, ?_⟩
  · rw [h6]
    simp only [List.length_append, List.length_map, List.length_take]
    omega
  · intro i hi
    rw [h6, List.mem_append, mem_present, isSome_mask_iff hd hi, List.mem_map]
    constructor
    · rintro (h | ⟨a, _, e⟩)
      · exact h.2
      · omega
    · intro h; exact .inl ⟨hi, h⟩
  · intro f
    rw [h6, List.mem_append, mem_present, List.mem_map]
    constructor
    · rintro (h | ⟨a, h, e⟩)
      · omega
      · have : a = f := by omega
        exact this ▸ h
    · intro h; exact .inr ⟨f, h, rfl⟩
  · intro a ha
    rw [h6, Fec.gt_toArray, List.getD_eq_getElem _ _ (by simp; omega), List.getElem_append_left (by omega)]
    exact (mem_present.mp (List.getElem_mem (l := present (datas.map Option.isSome) k) (by omega))).1

/-- an object with a matrix whose selected rows are invertible -/
theorem recovers_of {O : BinExt.Obj} {n low : Nat} {K : Type} [Field K] {r : K} {w k m : Nat} (hws : WordSize w) (hn : n = 8 * w)
    (B : BinExt.IsBinField O n low K r) (hk : 0 < k) {mat : Mat} {f : Nat → Nat → Nat} (i1 : Mat.Is mat m k f)
    (v1 : ∀ i j, i < m → j < k → B.sim.V (f i j)) {type : MatType}
    (hu : ∀ ids, ValidIds k (k + m) ids → IdsOk k m type ids → IsUnit (Mat.toM B.sim k (Mat.pick k f (gt ids))).det) (mem : Nat → Nat)
    {data : Array (List Nat)} {T : Nat} (hd : Gf2nData w k data T) :
    Gf2nRecovers (fec O.gf w k m mat) w k m mem data T (fun datas pars =>
      type = .vandermonde ∨ gt datas 0 ≠ none ∨ gt pars 0 = none ∨ k ≤ nAvail datas + 2) := by
  subst hn
  have H := RsGf2n.hspec B.full hws (fun a => by show a < 2 ^ (8 * w) ↔ _; rw [Nat.pow_mul]) hk i1 v1
  set E := fec O.gf w k m mat with hE
  have hrow : Rows E.base.word_size E.base.n_data (gt data) T := ⟨hd.full, hd.last⟩
  obtain ⟨fr, pr, ee, s1, s2, hf⟩ := Fec.encode_streams_horizontal_spec H (data := data)
    (outs := Array.replicate m []) (props := Array.replicate m .empty) mem (T := T) hd.size (by simp; rfl) (by simp; rfl) hd.bytes hrow
  change fr.size = m at s1
  change ∀ f, f < m → _ at hf
  refine ⟨fr, pr, ee, s1, ?_, ?_⟩
  · intro f' hf'
    rw [(hf f' hf').1, gt_replicate hf', List.nil_append, flat_length]
    rfl
  · intro datas pars outs props mem' hsv ho hav hsel
    obtain ⟨q1, q2, q3, q4, q5, q6, q7⟩ := sel_facts (B := E.base) (k := k) (m := m) rfl rfl rfl hsv.dsize hsv.psize hav
    obtain ⟨res, er, hr⟩ := Fec.decode_streams_horizontal_spec H (D := gt data) (T := T) (datas := datas) (pars := pars)
      (outs := outs) (props := props) mem' hd.bytes hrow (fun _ => hsv.dsize) hsv.psize hsv.qsize ho
      (by
        intro _ i s his
        refine hsv.dsame i s ?_ his
        by_contra c
        have hsz := hsv.dsize
        rw [gt, Array.getD_eq_getD_getElem?, Array.getElem?_eq_none (by omega)] at his
        cases his)
      (by
        intro f' s hf' hfs
        change f' < m at hf'
        obtain ⟨p1, p2⟩ := hsv.psame f' s hf' hfs
        have := hf f' hf'
        rw [gt_replicate hf', List.nil_append] at this
        exact ⟨by rw [p1, this.1], by rw [p2, this.2]⟩)
      (by
        intro hne _ hval
        rw [q1] at hne
        change nAvail datas ≠ k at hne
        refine hu _ hval ?_
        unfold IdsOk
        rcases hsel with h | h | h | h
        · exact .inl h
        · exact .inr (.inl ((getD_mem_iff q4).mpr ((q5 0 hk).mpr h)))
        · refine .inr (.inr (.inl ?_))
          intro a ha e0
          have hmem := (getD_mem_iff q4).mp ⟨a, ha, e0⟩
          have h0 := List.mem_of_mem_take ((q6 0).mp hmem)
          obtain ⟨p1, p2⟩ := mem_present.mp h0
          exact (isSome_mask_iff hsv.psize p1).mp p2 h
        · refine .inr (.inr (.inr ?_))
          have hsub : (Finset.range k).filter (fun a => k ≤ gt (E.base.idList (datas.map Option.isSome) (pars.map Option.isSome)).toArray a)
              ⊆ Finset.Ico (nAvail datas) k := by
            intro a ha
            obtain ⟨p1, p2⟩ := Finset.mem_filter.mp ha
            refine Finset.mem_Ico.mpr ⟨?_, Finset.mem_range.mp p1⟩
            by_contra c
            have := q7 a (by omega)
            omega
          refine (Finset.card_le_card hsub).trans ?_
          rw [Nat.card_Ico]; omega)
    rw [q1, q2] at hr
    change if nAvail datas = k then _ else if nAvail datas + nAvail pars < k then _ else _ at hr
    by_cases hall : nAvail datas = k
    · rw [if_pos hall] at hr
      subst hr
      exact ⟨outs, er, ho, fun i hi => by rw [if_pos hall]⟩
    · rw [if_neg hall, if_neg (by omega)] at hr
      obtain ⟨r1, r2, r3⟩ := hr
      refine ⟨res.2, by rw [er, ← r1], r2, ?_⟩
      intro i hi
      rw [if_neg hall, r3 i hi]
      rfl

theorem gf2n_recovers {b w k m : Nat} (h : Gf2nParams b w k m) (type : MatType) (mem : Nat → Nat) (junk : Nat → Nat → Nat)
    (junk3 : Nat → Nat → Nat → Nat) {data : Array (List Nat)} {T : Nat} (hd : Gf2nData w k data T) :
    ∃ E, RsGf2n.mk' b w k m type mem junk junk3 = .ok E ∧ Gf2nRecovers E w k m mem data T (fun datas pars =>
      type = .vandermonde ∨ gt datas 0 ≠ none ∨ gt pars 0 = none ∨ k ≤ nAvail datas + 2) := by
  obtain ⟨hws, hw16⟩ := gf2n_wordSize h
  haveI := fact_of (size_of h.field.size)
  obtain ⟨O, B, mat, f, e, i1, v1, hu, _⟩ := RsGf2n.mk'_spec h.field hw16 h.hk h.len type mem junk junk3
  exact ⟨_, e, recovers_of hws rfl B h.hk i1 v1 hu mem hd⟩

end Quad.Gf2nRec
