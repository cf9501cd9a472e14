import Verif.Lemmas.FecGf2nRec

/-!
# Matrix codes over GF(2^n) (C27, C28)

`RsGf2n.mk' b w k m type mem junk junk3` is the constructor of `RsGf2n<T>` with `T` of `b` bits; `mem`, `junk` and
`junk3` are the contents of uninitialised memory.
-/

namespace Quad.Props
open Quad Quad.Spec Quad.Gf2nRec RsGf2n

/-- C27: the Vandermonde code recovers the data from any `n_data` of the fragments, for every supported word size and
field, every number of fragments up to the number of field elements, every data and every loss pattern. -/
theorem C27_recovery {b w k m : Nat} (h : Gf2nParams b w k m) (mem : Nat → Nat) (junk : Nat → Nat → Nat)
    (junk3 : Nat → Nat → Nat → Nat) {data : Array (List Nat)} {T : Nat} (hd : Gf2nData w k data T) :
    ∃ E, RsGf2n.mk' b w k m .vandermonde mem junk junk3 = .ok E ∧ Gf2nRecovers E w k m mem data T (fun _ _ => True) := by
  obtain ⟨E, e, fr, pr, h1, h2, h3, h4⟩ := gf2n_recovers h .vandermonde mem junk junk3 hd
  exact ⟨E, e, fr, pr, h1, h2, h3, fun d p o q m' a1 a2 a3 _ => h4 d p o q m' a1 a2 a3 (.inl rfl)⟩

/-- C28, the loss patterns the Cauchy code recovers from: data fragment 0 is available, or parity fragment 0 is not,
or at most two data fragments are missing.  Missing: the other patterns, for which the property is false:
`C28_three_losses_fail`. -/
theorem C28_recovery_partial {b w k m : Nat} (h : Gf2nParams b w k m) (mem : Nat → Nat) (junk : Nat → Nat → Nat)
    (junk3 : Nat → Nat → Nat → Nat) {data : Array (List Nat)} {T : Nat} (hd : Gf2nData w k data T) :
    ∃ E, RsGf2n.mk' b w k m .cauchy mem junk junk3 = .ok E ∧ Gf2nRecovers E w k m mem data T (fun datas pars =>
      gt datas 0 ≠ none ∨ gt pars 0 = none ∨ k ≤ nAvail datas + 2) := by
  obtain ⟨E, e, fr, pr, h1, h2, h3, h4⟩ := gf2n_recovers h .cauchy mem junk junk3 hd
  exact ⟨E, e, fr, pr, h1, h2, h3, fun d p o q m' a1 a2 a3 a4 => h4 d p o q m' a1 a2 a3 (.inr a4)⟩

/-- C28 for at most two parity fragments: any `n_data` fragments suffice. -/
theorem C28_two_parities {b w k m : Nat} (h : Gf2nParams b w k m) (hm : m ≤ 2) (mem : Nat → Nat) (junk : Nat → Nat → Nat)
    (junk3 : Nat → Nat → Nat → Nat) {data : Array (List Nat)} {T : Nat} (hd : Gf2nData w k data T) :
    ∃ E, RsGf2n.mk' b w k m .cauchy mem junk junk3 = .ok E ∧ Gf2nRecovers E w k m mem data T (fun _ _ => True) := by
  obtain ⟨E, e, fr, pr, h1, h2, h3, h4⟩ := gf2n_recovers h .cauchy mem junk junk3 hd
  refine ⟨E, e, fr, pr, h1, h2, h3, fun d p o q m' a1 a2 a3 _ => h4 d p o q m' a1 a2 a3 (.inr (.inr (.inr ?_)))⟩
  have : nAvail p ≤ p.size := by
    unfold nAvail
    exact (List.countP_le_length).trans (by simp)
  rw [a1.psize] at this
  omega

/-- C28 is false with three parity fragments or more: when data fragments 0, `j` and `j + 2` are missing and parity
fragments 0, 1 and 2 are available, with bit 1 of `j + n_parities` clear, decoding throws `DomainError`, whatever
the fragments contain: the Cauchy matrix, once its first row and column are made of ones, has a singular
submatrix. -/
theorem C28_three_losses_fail {b w k m : Nat} (h : Gf2nParams b w k m) (hm : 3 ≤ m) {j : Nat} (hj : 0 < j) (hjk : j + 2 < k)
    (hbit : (j + m) % 4 < 2) (mem mem' : Nat → Nat) (junk : Nat → Nat → Nat) (junk3 : Nat → Nat → Nat → Nat)
    {datas pars outs : Array (Option (List Nat))} {props : Array Properties} (hds : datas.size = k) (hps : pars.size = m)
    (hqs : props.size = m) (hos : outs.size = k)
    (hlost : ∀ i, i < k → (gt datas i = none ↔ i = 0 ∨ i = j ∨ i = j + 2))
    (hpar : ∀ i, i < 3 → gt pars i ≠ none) :
    ∃ E, RsGf2n.mk' b w k m .cauchy mem junk junk3 = .ok E ∧
      E.decode_streams_horizontal datas pars props outs mem' = .error (.throws .domainError) := by
  obtain ⟨hws, hw16⟩ := gf2n_wordSize h
  haveI := fact_of (size_of h.field.size)
  obtain ⟨O, B, mat, f, e, i1, v1, _, hc⟩ := RsGf2n.mk'_spec h.field hw16 h.hk h.len .cauchy mem junk junk3
  refine ⟨_, e, ?_⟩
  set E := fec O.gf w k m mat with hE
  have hsel := E.base.selectFragments_spec h.hk (data := datas.map Option.isSome) (parities := pars.map Option.isSome) mem'
    (fun _ => by simp [hds]; rfl) (by simp [hps]; rfl)
  have hpres : present (datas.map Option.isSome) k = (List.range k).filter (fun i => decide (i ≠ 0 ∧ i ≠ j ∧ i ≠ j + 2)) := by
    unfold present
    refine List.filter_congr fun i hi => ?_
    have hi' := List.mem_range.mp hi
    rw [Bool.eq_iff_iff, isSome_mask_iff hds hi', ne_eq, hlost i hi']
    simp
  have hnd : nAvail datas = k - 3 := by
    have h2 : (present (datas.map Option.isSome) k).length = nAvail datas := present_eq_avail datas hds
    rw [← h2, hpres, ← List.countP_eq_length_filter]
    have := List.length_eq_countP_add_countP (fun i => decide (i ≠ 0 ∧ i ≠ j ∧ i ≠ j + 2)) (l := List.range k)
    have h3 : List.countP (fun a => decide ¬decide (a ≠ 0 ∧ a ≠ j ∧ a ≠ j + 2) = true) (List.range k) = 3 := by
      have hf : ({0, j, j + 2} : Finset Nat).card = 3 := by
        rw [Finset.card_insert_of_notMem (by simp; omega), Finset.card_insert_of_notMem (by simp), Finset.card_singleton]
      rw [← hf, List.countP_eq_length_filter, ← List.toFinset_card_of_nodup (List.nodup_range.filter _)]
      congr 1
      ext a
      simp only [List.mem_toFinset, List.mem_filter, List.mem_range, Finset.mem_insert, Finset.mem_singleton, decide_eq_true_eq]
      omega
    rw [List.length_range] at this
    omega
  have hps3 : ∃ l, present (pars.map Option.isSome) m = [0, 1, 2] ++ l := by
    unfold present
    obtain ⟨m', rfl⟩ : ∃ m', m = 3 + m' := ⟨m - 3, by omega⟩
    rw [List.range_add, List.filter_append]
    refine ⟨_, congrArg (· ++ _) ?_⟩
    rw [List.filter_eq_self.mpr]
    · rfl
    · intro a ha
      have := List.mem_range.mp ha
      exact (isSome_mask_iff hps (by omega)).mpr (hpar a this)
  obtain ⟨l, hl⟩ := hps3
  have hnp : 3 ≤ nAvail pars := by
    have h2 : (present (pars.map Option.isSome) m).length = nAvail pars := present_eq_avail pars hps
    rw [← h2, hl]; simp
  have hav : k ≤ nAvail datas + nAvail pars := by omega
  obtain ⟨q1, q2, q3, q4, q5, q6, q7⟩ := sel_facts (B := E.base) (k := k) (m := m) rfl rfl rfl hds hps hav
  have hkb : E.base.n_data = k := rfl
  have hmb : E.base.n_outputs = m := rfl
  rw [q1, q2, hkb, if_neg (by omega), if_neg (by omega)] at hsel
  have hids : (E.base.dataList (datas.map Option.isSome) ++ (E.base.parList (datas.map Option.isSome) (pars.map Option.isSome)).map
      (fun i => if E.base.sys then k + i else i)) = E.base.idList (datas.map Option.isSome) (pars.map Option.isSome) := rfl
  rw [hids] at hsel
  set ids := E.base.idList (datas.map Option.isSome) (pars.map Option.isSome) with hidd
  have hnodup : ids.Nodup := by
    have h1 : E.base.dataList (datas.map Option.isSome) = present (datas.map Option.isSome) k := rfl
    rw [hidd]
    unfold FecBase.idList
    refine List.Nodup.append (present_nodup _ _) ?_ ?_
    · refine List.Nodup.map ?_ ((present_nodup _ _).sublist (List.take_sublist _ _))
      intro a c hac
      change k + a = k + c at hac
      omega
    · intro a ha hb
      have := (mem_present.mp ha).1
      obtain ⟨c, _, e⟩ := List.mem_map.mp hb
      change k + c = a at e
      change a < k at this
      omega
  have hmem : ∀ a, a < k → gt ids.toArray a ∈ ids := fun a ha => (getD_mem_iff q4).mp ⟨a, ha, rfl⟩
  have hclass : ∀ x ∈ ids, x ≠ 0 ∧ x ≠ j ∧ x ≠ j + 2 ∧ x < k + 3 := by
    intro x hx
    have hlt : ∀ i, i < k → i ∈ ids → i ≠ 0 ∧ i ≠ j ∧ i ≠ j + 2 := by
      intro i hi hx
      have := (q5 i hi).mp hx
      rw [ne_eq, hlost i hi] at this
      tauto
    by_cases c : x < k
    · obtain ⟨p1, p2, p3⟩ := hlt x c hx
      exact ⟨p1, p2, p3, by omega⟩
    · obtain ⟨f', rfl⟩ : ∃ f', x = k + f' := ⟨x - k, by omega⟩
      have := (q6 f').mp hx
      rw [hl, show k - nAvail datas = 3 by omega] at this
      simp at this
      omega
  have hval : ValidIds k (k + m) ids.toArray := by
    refine ⟨by simp [q4], ?_, ?_⟩
    · intro a c ha hc' he
      rw [Fec.gt_toArray, Fec.gt_toArray] at he
      exact Fec.getD_ne_of_nodup hnodup (by omega) (by omega) he
    · intro a ha
      have := (hclass _ (hmem a ha)).2.2.2
      omega
  have hnu := Mat.cauchy_not_unit (S := B.sim) (m := m) (k := k) (f := f) B.full (fun t ht => show t < 2 ^ (8 * w) by have := h.len; omega)
    (fun i j hi hj => bin_ne B h.len hi hj) (by haveI := B.good.H.char; exact CharTwo.two_eq_zero) hm (hc rfl) (j := j) (j' := j + 2)
    hj (by omega) (by omega) hjk (by
      rw [show j + 2 + m = j + m + 2 by omega]
      exact bin_add_two B (by have := h.len; omega) (by have := h.len; omega) hbit) (by omega) (ids := gt ids.toArray)
    (fun a ha => by
      obtain ⟨p1, p2, p3, p4⟩ := hclass _ (hmem a ha)
      exact ⟨p1, p2, p3, fun _ => p4⟩)
  have hi := (init_dec_spec B.full i1 v1 hval props mem').2 hnu
  have hsys : E.base.sys = true := rfl
  unfold Fec.decode_streams_horizontal
  simp only [hsys, if_true, cassert, hds, hps, hqs, hos, hkb, hmb, decide_true, ok_bind, hsel]
  show (init_dec O.gf mat k ids.toArray props mem' >>= _) = _
  rw [hi]; rfl

/-- C28: with at least six data fragments there is always such a loss pattern. -/
theorem C28_bad_pattern_exists {k m : Nat} (hk : 6 ≤ k) : ∃ j, 0 < j ∧ j + 2 < k ∧ (j + m) % 4 < 2 := by
  have : (1 + m) % 4 < 2 ∨ (2 + m) % 4 < 2 ∨ (3 + m) % 4 < 2 := by omega
  rcases this with h | h | h
  · exact ⟨1, by omega, by omega, h⟩
  · exact ⟨2, by omega, by omega, h⟩
  · exact ⟨3, by omega, by omega, h⟩

/-! ### the hypotheses are met -/

example : Gf2nParams 32 1 10 6 ∧ Gf2nParams 64 8 3 2 ∧ Gf2nParams 32 1 4 3 := by
  refine ⟨⟨by decide, ⟨by decide, by decide, by decide, by decide⟩, by decide, by decide⟩,
    ⟨by decide, ⟨by decide, by decide, by decide, by decide⟩, by decide, by decide⟩,
    ⟨by decide, ⟨by decide, by decide, by decide, by decide⟩, by decide, by decide⟩⟩

example : Gf2nData 2 3 #[[1, 2, 3, 4], [5, 6, 7, 8, 9], [0, 0, 255, 255]] 2 :=
  ⟨rfl, by decide, by decide, 0, by decide, by decide⟩

example : (∀ i, i < 4 → (gt #[none, none, some [7], none] i = (none : Option (List Nat)) ↔ i = 0 ∨ i = 1 ∨ i = 1 + 2)) ∧
    (1 + 3) % 4 < 2 ∧ 4 ≤ nAvail #[none, none, some [7], none] + nAvail #[some [1], some [2], some [3]] := by
  refine ⟨?_, by decide, by decide⟩
  intro i hi
  have : i = 0 ∨ i = 1 ∨ i = 2 ∨ i = 3 := by omega
  rcases this with rfl | rfl | rfl | rfl <;> simp [gt]

end Quad.Props
