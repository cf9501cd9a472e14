import Verif.Spec.Distance
import Verif.Lemmas.Bench
import Verif.Lemmas.Packets
import Verif.Lemmas.FecFftAdd
import Verif.Lemmas.FntCode

/-!
# Fragments of different data
-/

namespace Quad
open Quad.Spec

theorem avail_ofFn {n : Nat} (p : Nat → Prop) [DecidablePred p] (g : Nat → List Nat) :
    avail (Array.ofFn (fun i : Fin n => if p i then some (g i) else none)) = (List.range n).countP (fun i => decide (p i)) := by
  unfold avail
  rw [Array.toList_ofFn, List.ofFn_eq_map, List.countP_map, ← List.map_coe_finRange_eq_range, List.countP_map]
  congr 1
  funext i
  by_cases h : p i <;> simp [h]

theorem countP_not {n : Nat} (p : Nat → Prop) [DecidablePred p] :
    (List.range n).countP (fun i => decide (p i)) + (List.range n).countP (fun i => decide (¬ p i)) = n := by
  have := List.length_eq_countP_add_countP (p := fun i => decide (p i)) (l := List.range n)
  rw [List.length_range] at this
  have e : (List.range n).countP (fun i => decide (¬ p i)) = (List.range n).countP (fun i => decide ¬ (decide (p i) = true)) := by
    refine List.countP_congr (fun i _ => ?_)
    simp
  rw [e]
  exact this.symm

theorem countP_all {n : Nat} (p : Nat → Prop) [DecidablePred p] (h : n ≤ (List.range n).countP (fun i => decide (p i))) : ∀ i, i < n → p i := by
  have h1 := List.countP_le_length (p := fun i => decide (p i)) (l := List.range n)
  rw [List.length_range] at h1
  have h2 := List.countP_eq_length.1 (show (List.range n).countP (fun i => decide (p i)) = (List.range n).length by rw [List.length_range]; omega)
  intro i hi
  simpa using h2 i (List.mem_range.2 hi)

/-- rows that agree in as many fragments as there are data are the same -/
def Mds (sys : Bool) (w k n : Nat) (st : Array Nat → Nat → Nat) (mk : Array Nat → Nat → Option Nat) : Prop :=
  ∀ a b, IsRow w k a → IsRow w k b →
    k ≤ (if sys then (List.range k).countP (fun i => decide (gt a i = gt b i)) else 0) +
      (List.range n).countP (fun f => decide (st a f = st b f ∧ mk a f = mk b f)) → a = b

theorem leBytes_inj {w a b : Nat} (ha : a < 256 ^ w) (hb : b < 256 ^ w) (h : leBytes w a = leBytes w b) : a = b := by
  rw [← leVal_leBytes ha, ← leVal_leBytes hb, h]

/-- the streams of one word -/
def oneWord (w k : Nat) (a : Array Nat) : Array (List Nat) := Array.ofFn (fun i : Fin k => leBytes w (gt a i))

theorem oneWord_gt {w k : Nat} {a : Array Nat} {i : Nat} (hi : i < k) : gt (oneWord w k a) i = leBytes w (gt a i) := gt_ofFn hi

theorem oneWord_row {w k : Nat} {a : Array Nat} (ha : IsRow w k a) : rowAt w k (gt (oneWord w k a)) 0 = a := by
  refine gt_ext (by simp [rowAt, ha.1]) (fun i hi => ?_)
  have hi' : i < k := by simpa [rowAt] using hi
  rw [rowAt_gt hi', oneWord_gt hi']
  unfold wordAt
  rw [Nat.zero_mul, List.drop_zero, List.take_of_length_le (by simp), leVal_leBytes (ha.2 i hi')]

theorem oneWord_data {w k : Nat} (hw : 0 < w) (hk : 0 < k) (a : Array Nat) : Gf2nData w k (oneWord w k a) 1 :=
  ⟨by simp [oneWord], fun i hi => by rw [oneWord_gt hi]; exact leBytes_lt _ _, fun i hi => by rw [oneWord_gt hi]; simp,
    0, hk, by rw [oneWord_gt hk]; simp; omega⟩

theorem mds_of_dec {sys : Bool} {w k n : Nat} {st : Array Nat → Nat → Nat} {mk : Array Nat → Nat → Option Nat}
    (dec : Array (Option (List Nat)) → Array (Option (List Nat)) → Array Properties → Res (Bool × Array (Option (List Nat))))
    (h : ∀ a, IsRow w k a → ∀ datas pars props, datas.size = k → pars.size = n → props.size = n →
      (∀ i s, i < k → gt datas i = some s → s = leBytes w (gt a i)) →
      (∀ f s, f < n → gt pars f = some s → s = leBytes w (st a f) ∧ gt props f = ⟨marksOf (fun _ => mk a f) 1⟩) →
      avail datas < k → k ≤ (if sys then avail datas else 0) + avail pars →
      ∃ o, dec datas pars props = .ok (true, o) ∧ ∀ i, i < k → gt o i = some (leBytes w (gt a i))) : Mds sys w k n st mk := by
  intro a b ha hb hc
  by_cases hall : ∀ i, i < k → gt a i = gt b i
  · exact gt_ext (by rw [ha.1, hb.1]) (fun i hi => hall i (by rw [← ha.1]; exact hi))
  have hlt : (List.range k).countP (fun i => decide (gt a i = gt b i)) < k := by
    by_contra hn
    exact hall (countP_all (fun i => gt a i = gt b i) (by omega))
  set datas : Array (Option (List Nat)) := Array.ofFn (fun i : Fin k => if gt a i = gt b i then some (leBytes w (gt a i)) else none) with hdat
  set pars : Array (Option (List Nat)) := Array.ofFn (fun f : Fin n => if st a f = st b f ∧ mk a f = mk b f then some (leBytes w (st a f)) else none) with hpar
  set props : Array Properties := Array.ofFn (fun f : Fin n => (⟨marksOf (fun _ => mk a f) 1⟩ : Properties)) with hpro
  have a1 : avail datas = (List.range k).countP (fun i => decide (gt a i = gt b i)) := 
    avail_ofFn (n := k) (fun i => gt a i = gt b i) (fun i => leBytes w (gt a i))
  have a2 : avail pars = (List.range n).countP (fun f => decide (st a f = st b f ∧ mk a f = mk b f)) :=
    avail_ofFn (fun f => st a f = st b f ∧ mk a f = mk b f) (fun f => leBytes w (st a f))
  have gd : ∀ i s, i < k → gt datas i = some s → gt a i = gt b i ∧ s = leBytes w (gt a i) := by
    intro i s hi hs
    rw [hdat, gt_ofFn hi] at hs
    simp only at hs
    split at hs
    · rename_i q; injection hs with hs; exact ⟨q, hs.symm⟩
    · cases hs
  have gp : ∀ f s, f < n → gt pars f = some s → (st a f = st b f ∧ mk a f = mk b f) ∧ s = leBytes w (st a f) := by
    intro i s hi hs
    rw [hpar, gt_ofFn hi] at hs
    simp only at hs
    split at hs
    · rename_i q; injection hs with hs; exact ⟨q, hs.symm⟩
    · cases hs
  have gq : ∀ f, f < n → gt props f = ⟨marksOf (fun _ => mk a f) 1⟩ := fun f hf => by rw [hpro, gt_ofFn hf]
  obtain ⟨o, e, q⟩ := h a ha datas pars props (by simp [hdat]) (by simp [hpar]) (by simp [hpro]) (fun i s hi hs => (gd i s hi hs).2)
    (fun f s hf hs => ⟨(gp f s hf hs).2, gq f hf⟩) (by omega) (by rw [a1, a2]; exact hc)
  obtain ⟨o', e', q'⟩ := h b hb datas pars props (by simp [hdat]) (by simp [hpar]) (by simp [hpro])
    (fun i s hi hs => by rw [(gd i s hi hs).2, (gd i s hi hs).1])
    (fun f s hf hs => ⟨by rw [(gp f s hf hs).2, (gp f s hf hs).1.1], by rw [gq f hf, (gp f s hf hs).1.2]⟩) (by omega) (by rw [a1, a2]; exact hc)
  rw [e] at e'
  cases e'
  refine gt_ext (by rw [ha.1, hb.1]) (fun i hi => ?_)
  have hi' : i < k := by rw [← ha.1]; exact hi
  exact leBytes_inj (ha.2 i hi') (hb.2 i hi') (Option.some.inj ((q i hi').symm.trans (q' i hi')))

theorem wordBytes_flat {w : Nat} {f : Nat → Nat} {T t : Nat} (ht : t < T) : wordBytes w t (flat w f T) = leBytes w (f t) := by
  obtain ⟨d, rfl⟩ : ∃ d, T = t + 1 + d := ⟨T - (t + 1), by omega⟩
  unfold wordBytes
  rw [flat_add, flat_succ, List.append_assoc, List.drop_left' (flat_length _ _ _), List.take_left' (leBytes_length _ _)]

theorem marksAt_marksOf {f : Nat → Option Nat} {T t : Nat} (ht : t < T) : marksAt t ⟨marksOf f T⟩ = ((f t).map (fun m => (t, m))).toList := by
  have key : ∀ T, ((marksOf f T).filter (fun it => decide (it.1 = t))) = if t < T then ((f t).map (fun m => (t, m))).toList else [] := by
    intro T
    induction T with
    | zero => rfl
    | succ T ih =>
      unfold marksOf at ih ⊢
      rw [List.range_succ, List.filterMap_append, List.filter_append, ih]
      rcases Nat.lt_trichotomy t T with h | h | h
      · rw [if_pos h, if_pos (by omega)]
        cases hv : f T <;> simp [hv]
        omega
      · subst h
        rw [if_neg (by omega), if_pos (by omega)]
        cases hv : f t <;> simp [hv]
      · rw [if_neg (by omega), if_neg (by omega)]
        cases hv : f T <;> simp [hv]
        omega
  show ((marksOf f T).filter _) = _
  rw [key T, if_pos ht]

theorem wordBytes_eq_iff {w t T T' : Nat} {s s' : List Nat} (ht : t < T) (ht' : t < T') (hl : T * w ≤ s.length) (hl' : T' * w ≤ s'.length)
    (hb : ∀ x ∈ s, x < 256) (hb' : ∀ x ∈ s', x < 256) : wordBytes w t s = wordBytes w t s' ↔ wordAt w s t = wordAt w s' t := by
  have key : ∀ {T : Nat} {s : List Nat}, t < T → T * w ≤ s.length → (∀ x ∈ s, x < 256) → wordBytes w t s = leBytes w (wordAt w s t) := by
    intro T s ht hl hb
    have h1 : ∀ x ∈ (s.drop (t * w)).take w, x < 256 := fun x hx => hb x (List.mem_of_mem_drop (List.mem_of_mem_take hx))
    have h2 := leBytes_leVal h1
    have h3 : (t + 1) * w ≤ T * w := Nat.mul_le_mul_right _ ht
    rw [Nat.succ_mul] at h3
    rw [show ((s.drop (t * w)).take w).length = w by rw [List.length_take, List.length_drop]; omega] at h2
    exact h2.symm
  constructor
  · intro h
    unfold wordAt
    unfold wordBytes at h
    rw [h]
  · intro h
    rw [key ht hl hb, key ht' hl' hb', h]

section
variable {sys : Bool} {w k n m T T' : Nat} {st : Array Nat → Nat → Nat} {mk : Array Nat → Nat → Option Nat}
  {data data' frags frags' : Array (List Nat)} {fprops fprops' : Array Properties}

theorem sameWord_iff (lt : ∀ {a f}, IsRow w k a → f < n → st a f < 256 ^ w) (hC : CodeOf w k n st mk data T frags fprops)
    (hC' : CodeOf w k n st mk data' T' frags' fprops') (hb : ∀ i, i < k → ∀ x ∈ gt data i, x < 256) (hb' : ∀ i, i < k → ∀ x ∈ gt data' i, x < 256)
    {t f : Nat} (ht : t < T) (ht' : t < T') (hf : f < n) :
    SameWord w t f frags frags' fprops fprops' ↔
      st (rowAt w k (gt data) t) f = st (rowAt w k (gt data') t) f ∧ mk (rowAt w k (gt data) t) f = mk (rowAt w k (gt data') t) f := by
  unfold SameWord
  rw [hC.frag f hf, hC'.frag f hf, hC.prop f hf, hC'.prop f hf, wordBytes_flat ht, wordBytes_flat ht', marksAt_marksOf ht, marksAt_marksOf ht']
  constructor
  · rintro ⟨h1, h2⟩
    refine ⟨leBytes_inj (lt (rowAt_isRow hb t) hf) (lt (rowAt_isRow hb' t) hf) h1, ?_⟩
    cases hx : mk (rowAt w k (gt data) t) f <;> cases hy : mk (rowAt w k (gt data') t) f <;> simp [hx, hy] at h2 ⊢
    exact h2
  · rintro ⟨h1, h2⟩
    rw [h1, h2]
    exact ⟨rfl, rfl⟩

theorem sameData_iff (hb : ∀ i, i < k → ∀ x ∈ gt data i, x < 256) (hb' : ∀ i, i < k → ∀ x ∈ gt data' i, x < 256)
    (hl : ∀ i, i < k → T * w ≤ (gt data i).length) (hl' : ∀ i, i < k → T' * w ≤ (gt data' i).length) {t i : Nat} (ht : t < T) (ht' : t < T') (hi : i < k) :
    SameData w t i data data' ↔ gt (rowAt w k (gt data) t) i = gt (rowAt w k (gt data') t) i := by
  unfold SameData
  rw [rowAt_gt hi, rowAt_gt hi]
  exact wordBytes_eq_iff ht ht' (hl i hi) (hl' i hi) (hb i hi) (hb' i hi)

theorem farApart (hM : Mds sys w k n st mk) (lt : ∀ {a f}, IsRow w k a → f < n → st a f < 256 ^ w) (hn : n = if sys then m else k + m)
    (hC : CodeOf w k n st mk data T frags fprops) (hC' : CodeOf w k n st mk data' T' frags' fprops')
    (hb : ∀ i, i < k → ∀ x ∈ gt data i, x < 256) (hb' : ∀ i, i < k → ∀ x ∈ gt data' i, x < 256)
    (hl : ∀ i, i < k → T * w ≤ (gt data i).length) (hl' : ∀ i, i < k → T' * w ≤ (gt data' i).length) :
    FarApart w k n m sys T T' data data' frags frags' fprops fprops' := by
  rintro t ht ht' ⟨i, hi, hne⟩
  by_contra hcon
  rw [sameData_iff hb hb' hl hl' ht ht' hi] at hne
  refine hne ?_
  rw [hM _ _ (rowAt_isRow hb t) (rowAt_isRow hb' t) ?_]
  have c1 : (List.range k).countP (fun i => decide (SameData w t i data data')) =
      (List.range k).countP (fun i => decide (gt (rowAt w k (gt data) t) i = gt (rowAt w k (gt data') t) i)) := by
    refine List.countP_congr (fun i hi => ?_)
    simp [sameData_iff hb hb' hl hl' ht ht' (List.mem_range.1 hi)]
  have c2 : (List.range n).countP (fun f => decide (SameWord w t f frags frags' fprops fprops')) =
      (List.range n).countP (fun f => decide (st (rowAt w k (gt data) t) f = st (rowAt w k (gt data') t) f ∧
        mk (rowAt w k (gt data) t) f = mk (rowAt w k (gt data') t) f)) := by
    refine List.countP_congr (fun f hf => ?_)
    simp only [decide_eq_true_eq]
    exact sameWord_iff lt hC hC' hb hb' ht ht' (List.mem_range.1 hf)
  rw [← c1, ← c2]
  have n1 := countP_not (n := k) (fun i => SameData w t i data data')
  have n2 := countP_not (n := n) (fun f => SameWord w t f frags frags' fprops fprops')
  unfold wordDistance at hcon
  cases sys <;> simp only [if_true, Bool.false_eq_true, if_false] at hcon hn ⊢ <;> omega

theorem agreeWithData (lt : ∀ {a f}, IsRow w k a → f < n → st a f < 256 ^ w)
    (hC : CodeOf w k n st mk data T frags fprops) (hC' : CodeOf w k n st mk data' T' frags' fprops')
    (hb : ∀ i, i < k → ∀ x ∈ gt data i, x < 256) (hb' : ∀ i, i < k → ∀ x ∈ gt data' i, x < 256)
    (hl : ∀ i, i < k → T * w ≤ (gt data i).length) (hl' : ∀ i, i < k → T' * w ≤ (gt data' i).length) :
    AgreeWithData w k n T T' data data' frags frags' fprops fprops' := by
  intro t ht ht' h f hf
  rw [sameWord_iff lt hC hC' hb hb' ht ht' hf]
  have : rowAt w k (gt data) t = rowAt w k (gt data') t := by
    refine gt_ext (by simp [rowAt]) (fun i hi => ?_)
    have hi' : i < k := by simpa [rowAt] using hi
    exact (sameData_iff hb hb' hl hl' ht ht' hi').1 (h i hi')
  rw [this]
  exact ⟨rfl, rfl⟩

end

section
variable {Γ : Type} {E : Fec Γ} {st : Array Nat → Nat → Nat} {mk : Array Nat → Nat → Option Nat} {A : Array Nat → Prop}

theorem Fec.HSpec.mds (H : E.HSpec st mk A) (hA : ∀ ids, A ids) : Mds E.base.sys E.base.word_size E.base.n_data E.base.n_outputs st mk := by
  refine mds_of_dec (fun datas pars props => E.decode_streams_horizontal datas pars props (Array.replicate E.base.n_data (some [])) (fun _ => 0)) ?_
  intro a ha datas pars props h1 h2 h3 hd hp hav hge
  have hrow : rowAt E.base.word_size E.base.n_data (fun i => leBytes E.base.word_size (gt a i)) 0 = a := by
    refine gt_ext (by simp [rowAt, ha.1]) (fun i hi => ?_)
    have hi' : i < E.base.n_data := by simpa [rowAt] using hi
    rw [rowAt_gt hi']
    unfold wordAt
    rw [Nat.zero_mul, List.drop_zero, List.take_of_length_le (by simp), leVal_leBytes (ha.2 i hi')]
  obtain ⟨res, er, hr⟩ := Fec.decode_streams_horizontal_spec H (D := fun i => leBytes E.base.word_size (gt a i)) (T := 1) (datas := datas) (pars := pars)
    (outs := Array.replicate E.base.n_data (some [])) (props := props) (fun _ => 0) (fun i _ x hx => leBytes_lt _ _ x hx)
    ⟨fun i _ => by simp, 0, H.kpos, by have := H.w.pos; simp; omega⟩ (fun _ => h1) h2 h3 (by simp)
    (fun _ i t hi => by
      refine hd i t ?_ hi
      by_contra c
      rw [gt, Array.getD_eq_getD_getElem?, Array.getElem?_eq_none (by omega)] at hi
      cases hi)
    (fun f t hf hi => by
      obtain ⟨q1, q2⟩ := hp f t hf hi
      constructor
      · rw [q1, flat_succ, flat_zero, List.nil_append, hrow]
      · rw [q2]
        exact congrArg Properties.mk (marksOf_congr (fun t ht => by
          have : t = 0 := by omega
          subst this
          rw [hrow])))
    (fun _ _ => hA _)
  have hdl : (E.base.dataList (datas.map Option.isSome)).length = if E.base.sys then avail datas else 0 := by
    unfold FecBase.dataList
    split
    · exact present_eq_avail datas h1
    · rfl
  have hpl : (present (pars.map Option.isSome) E.base.n_outputs).length = avail pars := present_eq_avail pars h2
  rw [hdl, hpl, if_neg (by have := H.kpos; split <;> omega), if_neg (by omega)] at hr
  refine ⟨res.2, ?_, fun i hi => ?_⟩
  · rw [er, ← hr.1]
  · rw [hr.2.2 i hi, gt_replicate hi]
    simp

theorem Fec.HSpec.codeOf (H : E.HSpec st mk A) {w k n : Nat} (hw : E.base.word_size = w) (hk : E.base.n_data = k) (hn : E.base.n_outputs = n)
    {data frags : Array (List Nat)} {fprops : Array Properties} {T : Nat} {mem : Nat → Nat} (hd : Gf2nData w k data T)
    (e : E.encode_streams_horizontal data (Array.replicate n []) (Array.replicate n .empty) mem = .ok (frags, fprops)) :
    CodeOf w k n st mk data T frags fprops := by
  subst hw hk hn
  obtain ⟨o, p, e', s1, s2, q⟩ := Fec.encode_streams_horizontal_spec H (data := data) (outs := Array.replicate E.base.n_outputs [])
    (props := Array.replicate E.base.n_outputs .empty) mem (T := T) hd.size (by simp) (by simp) hd.bytes ⟨hd.full, hd.last⟩
  rw [e] at e'
  cases e'
  exact ⟨s1, s2, fun f hf => by rw [(q f hf).1, gt_replicate hf, List.nil_append], fun f hf => (q f hf).2⟩

theorem Fec.HSpec.codes (H : E.HSpec st mk A) {w k n : Nat} (hw : E.base.word_size = w) (hk : E.base.n_data = k) (hn : E.base.n_outputs = n)
    {data : Array (List Nat)} {T : Nat} (mem : Nat → Nat) (hd : Gf2nData w k data T) :
    ∃ frags fprops, E.encode_streams_horizontal data (Array.replicate n []) (Array.replicate n .empty) mem = .ok (frags, fprops) := by
  subst hw hk hn
  obtain ⟨o, p, e, _⟩ := Fec.encode_streams_horizontal_spec H (data := data) (outs := Array.replicate E.base.n_outputs [])
    (props := Array.replicate E.base.n_outputs .empty) mem (T := T) hd.size (by simp) (by simp) hd.bytes ⟨hd.full, hd.last⟩
  exact ⟨o, p, e⟩

/-- two rows that agree in as many fragments as there are data -/
theorem Fec.HSpec.not_far (H : E.HSpec st mk A) {w k n m : Nat} (hw : E.base.word_size = w) (hk : E.base.n_data = k) (hn : E.base.n_outputs = n)
    {a c : Array Nat} (ha : IsRow w k a) (hc : IsRow w k c) (hne : a ≠ c)
    (hd : (List.range k).countP (fun i => decide (¬ gt a i = gt c i)) +
      (List.range n).countP (fun f => decide (¬ (st a f = st c f ∧ mk a f = mk c f))) ≤ m) : ¬ AnyTwo E w k n (FarApart w k n m true) := by
  intro h
  have hk0 : 0 < k := by rw [← hk]; exact H.kpos
  have hw0 : 0 < w := by rw [← hw]; exact H.w.pos
  have d1 := oneWord_data hw0 hk0 a
  have d2 := oneWord_data hw0 hk0 c
  obtain ⟨fr, fp, e⟩ := H.codes hw hk hn (fun _ => 0) d1
  obtain ⟨fr', fp', e'⟩ := H.codes hw hk hn (fun _ => 0) d2
  have hS : ∀ f, f < n → (SameWord w 0 f fr fr' fp fp' ↔ st a f = st c f ∧ mk a f = mk c f) := fun f hf => by
    have := sameWord_iff (fun {a f} ha hf => by subst hw hk hn; exact H.lt ha hf) (H.codeOf hw hk hn d1 e) (H.codeOf hw hk hn d2 e')
      d1.bytes d2.bytes (t := 0) (by omega) (by omega) hf
    rwa [oneWord_row ha, oneWord_row hc] at this
  have hD : ∀ i, i < k → (SameData w 0 i (oneWord w k a) (oneWord w k c) ↔ gt a i = gt c i) := fun i hi => by
    have := sameData_iff d1.bytes d2.bytes d1.full d2.full (t := 0) (by omega) (by omega) hi
    rwa [oneWord_row ha, oneWord_row hc] at this
  have hlt := h d1 d2 e e' 0 (by omega) (by omega) (by
    by_contra hcon
    refine hne (gt_ext (by rw [ha.1, hc.1]) (fun i hi => ?_))
    rw [ha.1] at hi
    by_contra hx
    exact hcon ⟨i, hi, fun hs => hx ((hD i hi).1 hs)⟩)
  unfold wordDistance at hlt
  have c1 : (List.range k).countP (fun i => decide (¬ SameData w 0 i (oneWord w k a) (oneWord w k c))) =
      (List.range k).countP (fun i => decide (¬ gt a i = gt c i)) :=
    List.countP_congr (fun i hi => by simp only [decide_eq_true_eq, hD i (List.mem_range.1 hi)])
  have c2 : (List.range n).countP (fun f => decide (¬ SameWord w 0 f fr fr' fp fp')) =
      (List.range n).countP (fun f => decide (¬ (st a f = st c f ∧ mk a f = mk c f))) :=
    List.countP_congr (fun f hf => by simp only [decide_eq_true_eq, hS f (List.mem_range.1 hf)])
  rw [if_pos rfl, c1, c2] at hlt
  omega

theorem Fec.HSpec.anyTwo_local (H : E.HSpec st mk A) {w k n : Nat} (hw : E.base.word_size = w) (hk : E.base.n_data = k) (hn : E.base.n_outputs = n) :
    AnyTwo E w k n (AgreeWithData w k n) := by
  intro data data' frags frags' fprops fprops' T T' mem mem' h h' e e'
  exact agreeWithData (fun {a f} ha hf => by subst hw hk hn; exact H.lt ha hf) (H.codeOf hw hk hn h e) (H.codeOf hw hk hn h' e') h.bytes h'.bytes h.full h'.full

theorem Fec.HSpec.anyTwo_far' (H : E.HSpec st mk A) {w k n m : Nat} {sys : Bool} (hM : Mds sys w k n st mk) (hw : E.base.word_size = w)
    (hk : E.base.n_data = k) (hn : E.base.n_outputs = n) (hm : n = if sys then m else k + m) : AnyTwo E w k n (FarApart w k n m sys) := by
  intro data data' frags frags' fprops fprops' T T' mem mem' h h' e e'
  exact farApart hM (fun {a f} ha hf => by subst hw hk hn; exact H.lt ha hf) hm
    (H.codeOf hw hk hn h e) (H.codeOf hw hk hn h' e') h.bytes h'.bytes h.full h'.full

theorem Fec.HSpec.anyTwo_far (H : E.HSpec st mk A) (hA : ∀ ids, A ids) {w k n m : Nat} {sys : Bool} (hw : E.base.word_size = w) (hk : E.base.n_data = k)
    (hn : E.base.n_outputs = n) (hs : E.base.sys = sys) (hm : n = if sys then m else k + m) : AnyTwo E w k n (FarApart w k n m sys) :=
  H.anyTwo_far' (by subst hw hk hn hs; exact H.mds hA) hw hk hn hm

end

theorem card_filter_range (n : Nat) (p : Nat → Prop) [DecidablePred p] :
    ((Finset.range n).filter p).card = (List.range n).countP (fun i => decide (p i)) := by
  rw [List.countP_eq_length_filter]
  rfl

open Polynomial in
theorem RsGf2nFftAdd.mds {K : Type} [Field K] {c : RsGf2nFftAdd.Code} {S : c.base.F.Sim K} {w k m n : Nat} {pt : Nat → K}
    (G : RsGf2nFftAdd.Good c S w k m n pt) : Mds false w k (k + m) (RsGf2nFftAdd.sym c) (fun _ _ => none) := by
  intro a b ha hb hc
  simp only [Bool.false_eq_true, if_false, and_true, Nat.zero_add] at hc
  rw [← card_filter_range (k + m) (fun f => RsGf2nFftAdd.sym c a f = RsGf2nFftAdd.sym c b f)] at hc
  have hle := G.le
  have hp : polyOf S a = polyOf S b := by
    refine Polynomial.eq_of_degrees_lt_of_eval_index_eq (v := pt) _ (fun i hi j hj h => ?_)
      (lt_of_lt_of_le (polyOf_degree_lt S a) (by rw [ha.1]; exact_mod_cast hc)) (lt_of_lt_of_le (polyOf_degree_lt S b) (by rw [hb.1]; exact_mod_cast hc))
      (fun i hi => ?_)
    · have h1 := Finset.mem_range.1 (Finset.mem_filter.1 hi).1
      have h2 := Finset.mem_range.1 (Finset.mem_filter.1 hj).1
      exact G.inj i j (by omega) (by omega) h
    · obtain ⟨h1, h2⟩ := Finset.mem_filter.1 hi
      have h1 := Finset.mem_range.1 h1
      rw [← (RsGf2nFftAdd.sym_spec G ha (f := i) (by omega)).2, h2, (RsGf2nFftAdd.sym_spec G hb (f := i) (by omega)).2]
  refine gt_ext (by rw [ha.1, hb.1]) (fun i hi => ?_)
  refine G.full.inj (RsGf2nFftAdd.row_V G ha i) (RsGf2nFftAdd.row_V G hb i) ?_
  rw [← polyOf_coeff, hp, polyOf_coeff]

end Quad
