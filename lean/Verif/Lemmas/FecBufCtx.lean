import Verif.Lemmas.FecBuf
import Verif.Lemmas.FecFntStream

/-!
Constructors of buffer objects and of the packet-level context; the restoration
of marked symbols in a packet.
-/

namespace Quad
open Finset Polynomial

/-- `H'` is `H` with more blocks -/
structure Ext (H H' : Heap) : Prop where
  le : H.size ≤ H'.size
  same : ∀ b, b < H.size → gt H' b = gt H b

theorem Ext.refl (H : Heap) : Ext H H := ⟨le_rfl, fun _ _ => rfl⟩

theorem Ext.trans {H1 H2 H3 : Heap} (h : Ext H1 H2) (h' : Ext H2 H3) : Ext H1 H3 :=
  ⟨h.le.trans h'.le, fun b hb => by rw [h'.same b (by have := h.le; omega), h.same b hb]⟩

theorem Okb.ext {pkt : Nat} {H H' : Heap} {mem : Array Nat} (h : Okb pkt H mem) (e : Ext H H') : Okb pkt H' mem :=
  fun i hi => by
    have := h i hi
    rw [e.same _ this.1]
    exact ⟨by have := e.le; omega, this.2⟩

theorem Bufs.full_spec (junk : Nat → Nat → Nat) (H : Heap) (n size : Nat) :
    ∃ H' m, Bufs.full junk H n size = (H', ⟨m, n, size⟩) ∧ m.size = n ∧ (∀ i, i < n → gt m i = H.size + i) ∧
      H'.size = H.size + n ∧ Ext H H' ∧ Okb size H' m ∧ InjPtr m := by
  refine ⟨_, _, rfl, by simp, fun i hi => by rw [gt_ofFn hi], by simp, ⟨by simp, fun b hb => by rw [gt_append, if_pos hb]⟩, ?_, ?_⟩
  · intro i hi
    have hi' : i < n := by simpa using hi
    rw [gt_ofFn hi', gt_append, if_neg (by omega), gt_ofFn (by omega)]
    simp; omega
  · intro i j hi hj h
    have hi' : i < n := by simpa using hi
    have hj' : j < n := by simpa using hj
    rw [gt_ofFn hi', gt_ofFn hj'] at h
    exact Nat.add_left_cancel h

theorem Bufs.slice_spec {H : Heap} {vec : Bufs} {e : Nat} (he : 0 < e) (h1 : e ≤ vec.n) (h2 : e ≤ vec.mem.size) :
    Bufs.slice H vec 0 e = .ok (H, ⟨vec.mem.extract 0 e, e, vec.size⟩) := by
  unfold Bufs.slice
  simp only [cassert, he, decide_true, if_true, ok_bind]
  rw [if_pos h1, if_pos h2]
  rfl

theorem Bufs.concat_spec {a b : Bufs} (h : a.size = b.size) :
    Bufs.concat a b = .ok ⟨a.mem ++ b.mem, a.n + b.n, a.size⟩ := by
  unfold Bufs.concat
  simp only [cassert, h, decide_true, if_true, ok_bind]
  rfl

theorem zeroBlock_spec (H : Heap) (size : Nat) : Ext H (Bufs.zeroBlock H size) ∧ (Bufs.zeroBlock H size).size = H.size + 1 ∧
    gt (Bufs.zeroBlock H size) H.size = Array.replicate size 0 := by
  unfold Bufs.zeroBlock
  refine ⟨⟨by simp, fun b hb => ?_⟩, by simp, ?_⟩
  · simp [gt, Array.getD, hb, show b < H.size + 1 by omega, Array.getElem_push_lt]
  · simp [gt]

theorem Bufs.shuffle_spec {H : Heap} {vec : Bufs} {map : Array Nat} {n : Nat} (h1 : vec.n < n) (h2 : map.size ≤ n)
    (h3 : map.size ≤ vec.mem.size) (hlt : ∀ i, i < map.size → gt map i < n)
    (hinj : ∀ i j, i < map.size → j < map.size → gt map i = gt map j → i = j) :
    ∃ m, Bufs.shuffle H vec map n = .ok (zeroBlock H vec.size, ⟨m, n, vec.size⟩) ∧ m.size = n ∧
      (∀ i, i < map.size → gt m (gt map i) = gt vec.mem i) ∧
      ∀ j, j < n → (∀ i, i < map.size → gt map i ≠ j) → gt m j = H.size := by
  obtain ⟨m, e, i1, i2, i3⟩ := forN_inv (n := map.size) (s := Array.replicate n H.size) (f := fun i mem => do
      let j ← rd map i
      let p ← rd vec.mem i
      wr mem j p)
    (I := fun t (m : Array Nat) => m.size = n ∧ (∀ i, i < t → gt m (gt map i) = gt vec.mem i) ∧
      ∀ j, j < n → (∀ i, i < t → gt map i ≠ j) → gt m j = H.size)
    ⟨by simp, by simp, fun j hj _ => gt_replicate hj⟩ (by
      rintro t m ht ⟨i1, i2, i3⟩
      have := hlt t ht
      refine ⟨_, by rw [rd_gt (a := map) ht, ok_bind, rd_gt (a := vec.mem) (by omega), ok_bind, wr_ok (by omega)], by simp [i1],
        fun i hi => ?_, fun j hj hne => ?_⟩
      · rw [gt_set (by omega)]
        by_cases h : i = t
        · subst h; rw [if_pos rfl]
        · rw [if_neg (fun he => h (hinj i t (by omega) ht he))]; exact i2 i (by omega)
      · rw [gt_set (by omega), if_neg (fun he => hne t (by omega) he.symm)]
        exact i3 j hj (fun i hi => hne i (by omega)))
  refine ⟨m, ?_, i1, i2, i3⟩
  unfold Bufs.shuffle
  simp only [cassert, h2, decide_true, if_true, ok_bind]
  rw [if_neg (by omega)]
  simp only
  rw [e, ok_bind]
  rfl

/-- the special cases of `mul_vec_to_vecp` are right for every element that is
the same in all lanes -/
def GF.SameCoef {F : GF} {ι K : Type} [Field K] (S : ι → F.Sim K) : Prop :=
  ∀ a, (∀ l, (S l).V a) → (∀ l l', (S l).φ a = (S l').φ a) → ∀ l, (S l).Coef a

section
variable {F : GF} {ι K : Type} [Field K] {S : ι → F.Sim K} {fft fft_2k : FT} {k n len_2k : Nat}
  {g g2 : K} {okLen : Nat → Prop}

/-- the constructor of a packet-level context -/
theorem CtxB.mk'_spec [Nonempty ι] (E : DecEnv S fft fft_2k k n len_2k (fun _ => g) (fun _ => g2) okLen) (hco : GF.SameCoef S)
    {ids vx : Array Nat} {props : Array Properties}
    (mem : Nat → Nat) (junk : Nat → Nat → Nat) (hids : ValidIds k n ids) (hvs : vx.size = k)
    (hv : ∀ l i, i < k → (S l).V (gt vx i) ∧ (S l).φ (gt vx i) = g ^ gt ids i) {pkt : Nat} {output : Bufs} {H : Heap}
    (hon : output.n = k) (hos : output.size = pkt) (hom : output.mem.size = k) (hoi : InjPtr output.mem)
    (hoo : Okb pkt H output.mem) :
    ∃ H' C z, CtxB.mk' F fft (some fft_2k) ids props vx k n none pkt output mem junk H = .ok (H', C, props.map Properties.sort) ∧
      Ext H H' ∧ C.Shape k n len_2k pkt ids output z ∧ C.Mem pkt z H' ∧ (∀ l, C.Vec (S l) k len_2k g g2 ids) ∧
      C.props_indices = Array.replicate props.size 0 ∧ H.size ≤ z ∧
      (∀ i, i < C.ptrs.size → (∃ j, j < k ∧ gt C.ptrs i = gt output.mem j) ∨ (H.size ≤ gt C.ptrs i ∧ gt C.ptrs i < H'.size)) := by
  obtain ⟨Cv, eC, hpi, hG⟩ := Ctx.mk'_spec E (ids := ids) (vx := vx) (props := props) mem hids.size hids.lt
    (fun i hi j hj he => hids.inj i j (by simpa using hi) (by simpa using hj) he) hvs hv
  obtain ⟨l0⟩ := (inferInstance : Nonempty ι)
  have hlen : Cv.len_2k = len_2k := (hG l0).len
  have hk := E.kpos
  have hkn := E.kn
  have hk2 := E.k2
  obtain ⟨mx, hmx⟩ : ∃ mx, mx = if n > len_2k then n else len_2k := ⟨_, rfl⟩
  have hmxn : n ≤ mx := by rw [hmx]; split <;> omega
  have hmx2 : len_2k ≤ mx := by rw [hmx]; split <;> omega
  obtain ⟨H1, P, e1, sP, gP, s1, x1, okP, injP⟩ := Bufs.full_spec junk H len_2k pkt
  obtain ⟨H2, Q, e2, sQ, gQ, s2, x2, okQ, injQ⟩ := Bufs.full_spec junk H1 (mx - k) pkt
  obtain ⟨m, e3, sm, gm, zm⟩ := Bufs.shuffle_spec (H := H2) (vec := ⟨P.extract 0 k, k, pkt⟩) (map := ids) (n := n) hkn
    (by rw [hids.size]; omega) (by rw [hids.size]; simp; omega) (fun i hi => hids.lt i (by rw [← hids.size]; exact hi))
    (fun i j hi hj h => hids.inj i j (by rw [← hids.size]; exact hi) (by rw [← hids.size]; exact hj) h)
  obtain ⟨x3, s3, z3⟩ := zeroBlock_spec H2 pkt
  have olt : ∀ i, i < k → gt output.mem i < H.size := fun i hi => (hoo i (by omega)).1
  set M := output.mem ++ Q with hM
  have sM : M.size = mx := by rw [hM, Array.size_append]; omega
  have dOQ : Disj output.mem Q := fun i j hi hj h => by
    have h1 := olt i (by omega)
    have h2 := gQ j (by omega)
    omega
  have injM : InjPtr M := hoi.append injQ dOQ
  have dPM : Disj P M := Disj.append_right (fun i j hi hj h => by
      have h1 := olt j (by omega)
      have h2 := gP i (by omega)
      omega) (fun i j hi hj h => by
      have h1 := gP i (by omega)
      have h2 := gQ j (by omega)
      omega)
  have hMk : M.extract 0 k = output.mem := by
    rw [hM, ← hom]; simp
  have okM : Okb pkt (Bufs.zeroBlock H2 pkt) M := by
    intro i hi
    rw [hM, gt_append]
    split
    · exact ((hoo.ext x1).ext x2 |>.ext x3) i (by assumption)
    · exact (okQ.ext x3) _ (by rw [sM] at hi; omega)
  have hPM : P.extract 0 k = P.extract 0 k := rfl
  refine ⟨Bufs.zeroBlock H2 pkt, {
             props_indices := Cv.props_indices, fragments_ids := Cv.fragments_ids, len_2k := Cv.len_2k,
             A_fft_2k := Cv.A_fft_2k, inv_A_i := Cv.inv_A_i, buf1_2k := ⟨P, len_2k, pkt⟩, bNmK := ⟨Q, mx - k, pkt⟩,
             buf1_k := ⟨P.extract 0 k, k, pkt⟩, buf1_n := ⟨m, n, pkt⟩, buf_max_n_2k := ⟨M, k + (mx - k), pkt⟩,
             buf2_n := ⟨M.extract 0 n, n, pkt⟩, buf2_2k := ⟨M.extract 0 len_2k, len_2k, pkt⟩ }, H2.size, ?_,
    (x1.trans x2).trans x3, ⟨hlen, (hG l0).idsEq, rfl, rfl, sP, rfl, sm, ?_, ?_, by show n ≤ M.size; omega,
      by show len_2k ≤ M.size; omega, rfl, rfl, ?_, injP, injM, dPM, ?_, ?_⟩, ⟨(okP.ext x2).ext x3, okM, by omega, z3⟩,
    ?_, hpi, by omega, ?_⟩
  · unfold CtxB.mk'
    rw [eC, ok_bind]
    simp only [hlen, ← hmx, e1, e2]
    rw [Bufs.slice_spec hk (by show k ≤ len_2k; omega) (by show k ≤ P.size; omega), ok_bind]
    simp only
    rw [e3, ok_bind]
    simp only
    rw [Bufs.concat_spec (by show output.size = pkt; exact hos), ok_bind]
    simp only [hon, hos]
    rw [Bufs.slice_spec (by omega) (by show n ≤ k + (mx - k); omega) (by show n ≤ M.size; omega), ok_bind]
    simp only
    rw [Bufs.slice_spec (by omega) (by show len_2k ≤ k + (mx - k); omega) (by show len_2k ≤ M.size; omega), ok_bind]
    rfl
  · intro i hi
    have := gm i (by rw [hids.size]; exact hi)
    rw [this]
    show gt (P.extract 0 k) i = gt P i
    rw [gt_extract (by omega) (by omega), Nat.zero_add]
  · intro j hj hne
    exact zm j hj (fun i hi => hne i (by rw [← hids.size]; exact hi))
  · show output = ⟨M.extract 0 k, k, pkt⟩
    rw [hMk, ← hon, ← hos]
  · intro i hi
    show gt P i ≠ H2.size
    rw [gP i (by change i < P.size at hi; omega)]
    change i < P.size at hi
    omega
  · intro i hi
    show gt M i ≠ H2.size
    change i < M.size at hi
    rw [hM, gt_append]
    split
    · have := olt i (by omega); omega
    · rw [gQ _ (by omega)]; omega
  · intro l
    have h := hG l
    refine ⟨h.invSize, fun i hi => ⟨hco _ (fun l => ((hG l).inv i hi).1) (fun l l' => ?_) l, (h.inv i hi).2⟩, h.ASize,
      fun j hj => ⟨hco _ (fun l => ((hG l).A j hj).1) (fun l l' => ?_) l, (h.A j hj).2⟩⟩
    · rw [((hG l).inv i hi).2, ((hG l').inv i hi).2]
    · rw [((hG l).A j hj).2, ((hG l').A j hj).2]
  · intro i hi
    unfold CtxB.ptrs at hi ⊢
    rw [Array.size_append] at hi
    change i < P.size + M.size at hi
    show (∃ j, j < k ∧ gt (P ++ M) i = gt output.mem j) ∨ (H.size ≤ gt (P ++ M) i ∧ gt (P ++ M) i < _)
    rw [gt_append]
    split
    · right
      rw [gP i (by omega)]; omega
    · rw [hM, gt_append]
      split
      · left
        exact ⟨i - P.size, by omega, rfl⟩
      · right
        rw [gQ _ (by omega)]; omega

/-- what `init_context_dec` does for packets -/
theorem FecB.init_context_dec_spec [Nonempty ι] {B : FecB} {S : ι → B.base.F.Sim K}
    (E : DecEnv S B.base.fft B.base.fft_2k B.base.n_data n len_2k (fun _ => g) (fun _ => g2) okLen) (hco : GF.SameCoef S)
    (hn : B.base.n = n) {ids : Array Nat} {props : Array Properties} (mem : Nat → Nat) (junk : Nat → Nat → Nat)
    (hids : ValidIds B.base.n_data n ids) (hrs : B.base.r_powers.size = n)
    (hr : ∀ l i, i < n → (S l).V (gt B.base.r_powers i) ∧ (S l).φ (gt B.base.r_powers i) = g ^ i)
    {pkt : Nat} {output : Bufs} {H : Heap} (hon : output.n = B.base.n_data) (hos : output.size = pkt)
    (hom : output.mem.size = B.base.n_data) (hoi : InjPtr output.mem) (hoo : Okb pkt H output.mem) :
    ∃ H' C z, B.init_context_dec ids props pkt output mem junk H = .ok (H', C, props.map Properties.sort) ∧
      Ext H H' ∧ C.Shape B.base.n_data n len_2k pkt ids output z ∧ C.Mem pkt z H' ∧
      (∀ l, C.Vec (S l) B.base.n_data len_2k g g2 ids) ∧ C.props_indices = Array.replicate props.size 0 ∧ H.size ≤ z ∧
      (∀ i, i < C.ptrs.size → (∃ j, j < B.base.n_data ∧ gt C.ptrs i = gt output.mem j) ∨
        (H.size ≤ gt C.ptrs i ∧ gt C.ptrs i < H'.size)) := by
  obtain ⟨vx, e, h1, h2⟩ := forN_inv (n := B.base.n_data) (s := fresh mem B.base.n_data) (f := fun i vx => do
      let j ← rd ids i
      let x ← rd B.base.r_powers j
      wr vx i x)
    (I := fun t (vx : Array Nat) => vx.size = B.base.n_data ∧ ∀ i, i < t → gt vx i = gt B.base.r_powers (gt ids i))
    ⟨by simp, by simp⟩ (by
      rintro t vx ht ⟨i1, i2⟩
      have := hids.lt t ht
      refine ⟨_, by rw [rd_gt (a := ids) (by rw [hids.size]; omega), ok_bind, rd_gt (a := B.base.r_powers) (by omega), ok_bind,
        wr_ok (by omega)], by simp [i1], fun i hi => ?_⟩
      rw [gt_set (by omega)]
      by_cases h : i = t
      · subst h; rw [if_pos rfl]
      · rw [if_neg h]; exact i2 i (by omega))
  obtain ⟨H', C, z, eC, h⟩ := CtxB.mk'_spec E hco (ids := ids) (vx := vx) (props := props) mem junk hids h1
    (fun l i hi => by rw [h2 i hi]; exact hr l _ (hids.lt i hi)) hon hos hom hoi hoo
  refine ⟨H', C, z, ?_, h⟩
  unfold FecB.init_context_dec
  rw [e, ok_bind, hn]
  exact eC

end

/-! ### marked symbols -/

theorem marksOf_length_le (f : Nat → Option Nat) {t T : Nat} (h : t ≤ T) : (marksOf f t).length ≤ (marksOf f T).length := by
  obtain ⟨d, rfl⟩ : ∃ d, T = t + d := ⟨T - t, by omega⟩
  rw [marksOf_add, List.length_append]; omega

/-- the number of marks at locations below `t` -/
def Properties.below (P : Properties) (t : Nat) : Nat := P.props.countP (fun x => decide (x.1 < t))

/-- in order of their locations -/
def Properties.Sorted (P : Properties) : Prop := P.props.Pairwise (fun a b => a.1 ≤ b.1)

theorem Properties.sort_perm (P : Properties) : P.sort.props.Perm P.props := List.mergeSort_perm _ _

theorem Properties.sort_sorted (P : Properties) : P.sort.Sorted := by
  have := List.pairwise_mergeSort (le := Properties.pairLe)
    (fun a b c h h' => by simp only [Properties.pairLe, decide_eq_true_eq] at *; omega)
    (fun a b => by simp only [Properties.pairLe, Bool.or_eq_true, decide_eq_true_eq]; omega) P.props
  unfold Properties.Sorted
  refine this.imp fun {a b} h => ?_
  simp only [Properties.pairLe, decide_eq_true_eq] at h
  omega

theorem sorted_countP {l : List (Nat × Nat)} (h : l.Pairwise (fun a b => a.1 ≤ b.1)) (t : Nat) :
    ∀ i x, l[i]? = some x → (i < l.countP (fun x => decide (x.1 < t)) ↔ x.1 < t) := by
  induction l with
  | nil => intro i x hx; simp at hx
  | cons y l ih =>
    rw [List.pairwise_cons] at h
    intro i x hx
    rw [List.countP_cons]
    cases i with
    | zero =>
      simp only [List.getElem?_cons_zero, Option.some.injEq] at hx
      subst hx
      by_cases hy : y.1 < t
      · simp [hy]
      · simp only [hy, iff_false, decide_false, Bool.false_eq_true, if_false, Nat.add_zero, Nat.not_lt, Nat.le_zero]
        rw [List.countP_eq_zero]
        intro a ha
        have := h.1 a ha
        simp; omega
    | succ i =>
      simp only [List.getElem?_cons_succ] at hx
      have := ih h.2 i x hx
      by_cases hy : y.1 < t
      · simp only [hy, decide_true, if_true]
        rw [← this]; omega
      · have hm := h.1 x (List.mem_of_getElem? hx)
        have h0 : l.countP (fun x => decide (x.1 < t)) = 0 := by
          rw [List.countP_eq_zero]
          intro a ha
          have := h.1 a ha
          simp; omega
        simp only [hy, h0, decide_false, Bool.false_eq_true, if_false]
        omega

theorem Properties.Sorted.get {P : Properties} (h : P.Sorted) {i : Nat} {x : Nat × Nat} (hx : P.props[i]? = some x) (t : Nat) :
    i < P.below t ↔ x.1 < t := sorted_countP h t i x hx

theorem Properties.below_le (P : Properties) (t : Nat) : P.below t ≤ P.props.length := List.countP_le_length

theorem Properties.below_mono (P : Properties) {s t : Nat} (h : s ≤ t) : P.below s ≤ P.below t :=
  List.countP_mono_left (fun x _ hx => by simp at hx ⊢; omega)

theorem Properties.below_zero (P : Properties) : P.below 0 = 0 := by
  unfold Properties.below
  rw [List.countP_eq_zero]; simp

theorem marksOf_lt (f : Nat → Option Nat) (T : Nat) : ∀ x ∈ marksOf f T, x.1 < T ∧ f x.1 = some x.2 := by
  induction T with
  | zero => intro x hx; simp [marksOf] at hx
  | succ T ih =>
    intro x hx
    rw [marksOf_succ, List.mem_append] at hx
    rcases hx with hx | hx
    · have := ih x hx
      exact ⟨by omega, this.2⟩
    · cases hf : f T with
      | none => rw [hf] at hx; simp at hx
      | some m => rw [hf] at hx; simp at hx; subst hx; exact ⟨by simp, hf⟩

theorem marksOf_mem {f : Nat → Option Nat} {T t m : Nat} (ht : t < T) (h : f t = some m) : (t, m) ∈ marksOf f T := by
  obtain ⟨d, rfl⟩ : ∃ d, T = (t + 1) + d := ⟨T - (t + 1), by omega⟩
  rw [marksOf_add, marksOf_succ, h]
  simp

theorem marksOf_pairwise (f : Nat → Option Nat) (T : Nat) : (marksOf f T).Pairwise (fun a b => a.1 ≤ b.1) :=
  (marksOf_sorted f T).imp (fun h => h.le)

theorem marksOf_below {f : Nat → Option Nat} {T t : Nat} (ht : t ≤ T) {P : Properties} (hP : P.props = marksOf f T) :
    P.below t = (marksOf f t).length := by
  obtain ⟨d, rfl⟩ : ∃ d, T = t + d := ⟨T - t, by omega⟩
  unfold Properties.below
  rw [hP, marksOf_add, List.countP_append, List.countP_eq_length.mpr (fun x hx => by simp [(marksOf_lt f t x hx).1]),
    List.countP_eq_zero.mpr (fun x hx => by
      obtain ⟨y, _, rfl⟩ := List.mem_map.mp hx
      simp)]
  omega

/-- restoring the marked symbols of one packet, from mark `idx` -/
theorem FecB.prepareLoop_spec {P : Properties} {off pkt thres chunk : Nat} (hP : P.Sorted) :
    ∀ (d idx fuel : Nat) (H : Heap), idx + d = P.below (off + pkt) → P.below off ≤ idx → d < fuel → chunk < H.size →
      (gt H chunk).size = pkt →
      ∃ H', FecB.prepareLoop P off (off + pkt) thres chunk fuel idx H = .ok (P.below (off + pkt), H') ∧ OnlyAt chunk H H' ∧
        (gt H' chunk).size = pkt ∧
        ∀ c, el H' chunk c = open Classical in if c < pkt ∧ (∃ i, idx ≤ i ∧ P.props[i]? = some (off + c, OOR_MARK)) then thres else el H chunk c := by
  classical
  intro d
  induction d with
  | zero =>
    intro idx fuel H hs hi hfuel hc hsz
    obtain ⟨fuel, rfl⟩ : ∃ x, fuel = x + 1 := ⟨fuel - 1, by omega⟩
    have hb : ∀ i x, idx ≤ i → P.props[i]? = some x → off + pkt ≤ x.1 := by
      intro i x hx hg
      have := (hP.get hg (off + pkt)).not
      omega
    refine ⟨H, ?_, ⟨rfl, fun _ _ => rfl⟩, hsz, fun c => ?_⟩
    · unfold FecB.prepareLoop
      have : P.in_range idx off (off + pkt) = false := by
        unfold Properties.in_range
        split
        · rename_i x hx
          have := hb idx x le_rfl hx
          simp; omega
        · rfl
      rw [this, ← hs]
      rfl
    · rw [if_neg]
      rintro ⟨h1, i, h2, h3⟩
      have := hb i _ h2 h3
      simp at this; omega
  | succ d ih =>
    intro idx fuel H hs hi hfuel hc hsz
    obtain ⟨fuel, rfl⟩ : ∃ x, fuel = x + 1 := ⟨fuel - 1, by omega⟩
    have hlen := P.below_le (off + pkt)
    obtain ⟨⟨l, m⟩, hx⟩ : ∃ x, P.props[idx]? = some x := ⟨P.props[idx]'(by omega), List.getElem?_eq_getElem (by omega)⟩
    have h1 : l < off + pkt := (hP.get hx (off + pkt)).mp (by omega)
    have h2 : off ≤ l := by
      have := (hP.get hx off).not
      simp only at this; omega
    have el1 : P.location idx = l := by unfold Properties.location; rw [hx]; rfl
    have em1 : P.marker idx = m := by unfold Properties.marker; rw [hx]; rfl
    have er1 : P.in_range idx off (off + pkt) = true := by unfold Properties.in_range; rw [hx]; simp; omega
    by_cases hm : m = OOR_MARK
    · obtain ⟨H', e, o, z, g⟩ := ih (idx + 1) fuel (H.setIfInBounds chunk ((gt H chunk).setIfInBounds (l - off) thres)) (by omega) (by omega)
        (by omega) (by simpa using hc) (by rw [gt_set hc, if_pos rfl]; simpa using hsz)
      refine ⟨H', ?_, ⟨by rw [o.1]; simp, fun b hb => by rw [o.2 b hb, gt_set hc, if_neg hb]⟩, z, fun c => ?_⟩
      · unfold FecB.prepareLoop
        rw [if_pos er1]
        simp only [el1, em1, hm, if_true]
        rw [Heap.wrEl_ok hc (by omega), ok_bind]
        exact e
      · rw [g c]
        unfold el
        rw [gt_set hc, if_pos rfl, gt_set (by omega)]
        by_cases h : c = l - off
        · rw [if_pos h]
          subst h
          rw [ite_self, if_pos ⟨by omega, idx, le_rfl, by rw [hx, hm]; congr 2; omega⟩]
        · rw [if_neg h]
          congr 1
          apply propext
          refine and_congr_right (fun _ => ⟨?_, ?_⟩)
          · rintro ⟨i, a, b⟩; exact ⟨i, by omega, b⟩
          · rintro ⟨i, a, b⟩
            refine ⟨i, ?_, b⟩
            rcases Nat.eq_or_lt_of_le a with rfl | a
            · rw [hx] at b; simp at b; omega
            · exact a
    · obtain ⟨H', e, o, z, g⟩ := ih (idx + 1) fuel H (by omega) (by omega) (by omega) hc hsz
      refine ⟨H', ?_, o, z, fun c => ?_⟩
      · unfold FecB.prepareLoop
        rw [if_pos er1]
        simp only [el1, em1, hm, if_false]
        exact e
      · rw [g c]
        congr 1
        apply propext
        refine and_congr_right (fun _ => ⟨?_, ?_⟩)
        · rintro ⟨i, a, b⟩; exact ⟨i, by omega, b⟩
        · rintro ⟨i, a, b⟩
          refine ⟨i, ?_, b⟩
          rcases Nat.eq_or_lt_of_le a with rfl | a
          · rw [hx] at b; simp at b; exact absurd b.2 hm
          · exact a

theorem Properties.Sorted.mem_from {P : Properties} (h : P.Sorted) (off c m : Nat) :
    (∃ i, P.below off ≤ i ∧ P.props[i]? = some (off + c, m)) ↔ (off + c, m) ∈ P.props := by
  constructor
  · rintro ⟨i, _, hi⟩; exact List.mem_of_getElem? hi
  · intro hm
    obtain ⟨i, hi⟩ := List.mem_iff_getElem?.mp hm
    refine ⟨i, ?_, hi⟩
    have := (h.get hi off).not
    simp only at this; omega

/-- the properties that hold the marks of fragment `g`, if any -/
def propOf (sys : Bool) (k g : Nat) : Option Nat := if sys then (if g < k then none else some (g - k)) else some g

/-- `decode_prepare` on packets -/
theorem FecB.decode_prepare_spec {B : FecB} {C : CtxB} {props : Array Properties} {off N pkt : Nat} {words : Bufs} {H : Heap}
    (hpkt : B.base.pkt_size = pkt)
    (hids : ValidIds B.base.n_data (if B.base.sys then B.base.n_data + N else N) C.fragments_ids)
    (hps : props.size = N) (hpis : C.props_indices.size = N)
    (hpr : ∀ i f, i < B.base.n_data → propOf B.base.sys B.base.n_data (gt C.fragments_ids i) = some f →
      (gt props f).Sorted ∧ gt C.props_indices f = (gt props f).below off) (hwn : words.n = B.base.n_data)
    (hwm : words.mem.size = B.base.n_data) (hwi : InjPtr words.mem) (hwo : Okb pkt H words.mem) :
    ∃ pi H', B.decode_prepare C props off words H = .ok ({ C with props_indices := pi }, H') ∧ pi.size = N ∧
      Frame words.mem H H' ∧ Okb pkt H' words.mem ∧
      (∀ i f, i < B.base.n_data → propOf B.base.sys B.base.n_data (gt C.fragments_ids i) = some f →
        gt pi f = (gt props f).below (off + pkt)) ∧
      ∀ i, i < B.base.n_data → ∀ c, c < pkt → el H' (gt words.mem i) c
        = match propOf B.base.sys B.base.n_data (gt C.fragments_ids i) with
          | none => el H (gt words.mem i) c
          | some f => if (off + c, OOR_MARK) ∈ (gt props f).props then B.base.F.card - 1 else el H (gt words.mem i) c := by
  set k := B.base.n_data with hk
  have hidx : ∀ i j f, i < k → j < k → propOf B.base.sys k (gt C.fragments_ids i) = some f →
      propOf B.base.sys k (gt C.fragments_ids j) = some f → i = j := by
    intro i j f hi hj h1 h2
    apply hids.inj i j hi hj
    unfold propOf at h1 h2
    cases hs : B.base.sys
    · rw [hs] at h1 h2; simp at h1 h2; omega
    · rw [hs] at h1 h2
      simp only [if_true] at h1 h2
      split at h1
      · simp at h1
      split at h2
      · simp at h2
      simp at h1 h2
      omega
  obtain ⟨s, e, pi, H', rfl, i1, i2, i3, i4, i5, _, _⟩ := forN_inv (n := k) (s := (C, H)) (f := fun i s => do
      let frag_id ← rd s.1.fragments_ids i
      if B.base.sys = true ∧ frag_id < B.base.n_data then pure s
      else do
        let chunk ← words.get i
        let frag_id := if B.base.sys then frag_id - B.base.n_data else frag_id
        let P ← rd props frag_id
        let idx ← rd s.1.props_indices frag_id
        let (idx, H) ← prepareLoop P off (off + B.base.pkt_size) (B.base.F.card - 1) chunk (P.props.length + 1) idx s.2
        let pi ← wr s.1.props_indices frag_id idx
        pure ({ s.1 with props_indices := pi }, H))
    (I := fun t (s : CtxB × Heap) => ∃ pi H', s = ({ C with props_indices := pi }, H') ∧ pi.size = N ∧ Frame words.mem H H' ∧
      Okb pkt H' words.mem ∧
      (∀ i f, i < t → propOf B.base.sys k (gt C.fragments_ids i) = some f → gt pi f = (gt props f).below (off + pkt)) ∧
      (∀ i, i < t → ∀ c, c < pkt → el H' (gt words.mem i) c
        = match propOf B.base.sys k (gt C.fragments_ids i) with
          | none => el H (gt words.mem i) c
          | some f => if (off + c, OOR_MARK) ∈ (gt props f).props then B.base.F.card - 1 else el H (gt words.mem i) c) ∧
      (∀ i f, t ≤ i → i < k → propOf B.base.sys k (gt C.fragments_ids i) = some f → gt pi f = (gt props f).below off) ∧
      (∀ i, t ≤ i → i < k → gt H' (gt words.mem i) = gt H (gt words.mem i)))
    ⟨C.props_indices, H, rfl, hpis, Frame.refl _ _, hwo, by simp, by simp, fun i f _ hi h => (hpr i f hi h).2, by simp⟩ (by
      rintro t _ ht ⟨pi, H1, rfl, i1, i2, i3, i4, i5, i6, i7⟩
      have hl := hids.lt t ht
      simp only
      rw [rd_gt (a := C.fragments_ids) (by rw [hids.size]; omega), ok_bind]
      by_cases hd : B.base.sys = true ∧ gt C.fragments_ids t < B.base.n_data
      · have hnone : propOf B.base.sys k (gt C.fragments_ids t) = none := by
          unfold propOf; rw [hd.1, if_pos rfl, if_pos hd.2]
        rw [if_pos hd]
        refine ⟨_, rfl, pi, H1, rfl, i1, i2, i3, ?_, ?_, fun i f h => i6 i f (by omega), fun i h => i7 i (by omega)⟩
        · intro i f hi h
          by_cases hit : i = t
          · subst hit; rw [hnone] at h; simp at h
          · exact i4 i f (by omega) h
        · intro i hi c hc
          by_cases hit : i = t
          · subst hit; rw [hnone]; unfold el; rw [i7 i le_rfl ht]
          · exact i5 i (by omega) c hc
      · rw [if_neg hd]
        obtain ⟨f, hfd⟩ : ∃ f, f = if B.base.sys then gt C.fragments_ids t - B.base.n_data else gt C.fragments_ids t := ⟨_, rfl⟩
        have hsome : propOf B.base.sys k (gt C.fragments_ids t) = some f := by
          unfold propOf
          rw [hfd]
          cases hs : B.base.sys
          · simp
          · have : ¬ gt C.fragments_ids t < k := fun h => hd ⟨hs, h⟩
            simp only [if_true]; rw [if_neg this]
        have hfN : f < N := by
          rw [hfd]
          cases hs : B.base.sys
          · rw [hs] at hl; simpa using hl
          · rw [hs] at hl
            have : ¬ gt C.fragments_ids t < B.base.n_data := fun h => hd ⟨hs, h⟩
            simp only [if_true] at hl ⊢; omega
        unfold Bufs.get
        simp only [cassert, hwn, ← hk, ht, decide_true, if_true, ok_bind]
        rw [rd_gt (a := words.mem) (by omega), ok_bind, hk, ← hfd, rd_gt (a := props) (by omega), ok_bind,
          rd_gt (a := pi) (by omega), ok_bind, i6 t f le_rfl ht hsome, hpkt]
        have hp := (hpr t f ht hsome).1
        obtain ⟨H2, e2, o2, z2, g2⟩ := prepareLoop_spec (off := off) (pkt := pkt) (thres := B.base.F.card - 1) (chunk := gt words.mem t) hp
          ((gt props f).below (off + pkt) - (gt props f).below off) ((gt props f).below off) ((gt props f).props.length + 1) H1
          (by have := (gt props f).below_mono (show off ≤ off + pkt by omega); omega) le_rfl
          (by have := (gt props f).below_le (off + pkt); omega) (i3 t (by omega)).1 (i3 t (by omega)).2
        rw [e2, ok_bind]
        simp only
        rw [wr_ok (by omega), ok_bind]
        have hne : ∀ i, i < k → i ≠ t → gt words.mem i ≠ gt words.mem t := fun i hi h1 h2 =>
          h1 (hwi i t (by omega) (by omega) h2)
        refine ⟨_, rfl, _, H2, rfl, by simp [i1], ?_, ?_, ?_, ?_, ?_, ?_⟩
        · exact i2.trans ⟨o2.1, fun b hb => o2.2 b (fun h => hb t (by omega) h.symm)⟩
        · intro i hi
          rw [o2.1]
          refine ⟨(i3 i hi).1, ?_⟩
          by_cases h : i = t
          · subst h; exact z2
          · rw [o2.2 _ (hne i (by omega) h)]; exact (i3 i hi).2
        · intro i f' hi h
          rw [gt_set (by omega)]
          by_cases hit : i = t
          · subst hit; rw [hsome] at h; cases h; rw [if_pos rfl]
          · rw [if_neg (fun he : f' = f => hit (hidx i t f (by omega) ht (he ▸ h) hsome))]
            exact i4 i f' (by omega) h
        · intro i hi c hc
          by_cases hit : i = t
          · subst hit
            rw [hsome, g2 c]
            simp only
            have : el H1 (gt words.mem i) c = el H (gt words.mem i) c := by unfold el; rw [i7 i le_rfl ht]
            rw [this]
            simp only [hp.mem_from, hc, true_and]
          · have : el H2 (gt words.mem i) c = el H1 (gt words.mem i) c := by unfold el; rw [o2.2 _ (hne i (by omega) hit)]
            rw [this]
            exact i5 i (by omega) c hc
        · intro i f' hi hik h
          rw [gt_set (by omega), if_neg (fun he => by have := hidx i t f hik ht (he ▸ h) hsome; omega)]
          exact i6 i f' (by omega) hik h
        · intro i hi hik
          rw [o2.2 _ (hne i hik (by omega))]
          exact i7 i (by omega) hik)
  exact ⟨pi, H', e, i1, i2, i3, i4, i5⟩

end Quad
