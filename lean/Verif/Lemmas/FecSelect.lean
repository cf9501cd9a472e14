import Verif.Lemmas.FecStream
import Mathlib.Data.List.GetD

/-!
Selection of fragments, and decoding of horizontal streams.
-/

namespace Quad

/-- the first entries of an array are the list `l` -/
def Holds (a : Array Nat) (l : List Nat) : Prop := l.length ≤ a.size ∧ ∀ j, j < l.length → gt a j = l.getD j 0

theorem Holds.nil (a : Array Nat) : Holds a [] := ⟨by simp, by simp⟩

theorem Holds.snoc {a : Array Nat} {l : List Nat} (h : Holds a l) (hl : l.length < a.size) (x : Nat) :
    Holds (a.setIfInBounds l.length x) (l ++ [x]) := by
  refine ⟨by simp; omega, fun j hj => ?_⟩
  simp only [List.length_append, List.length_singleton] at hj
  rw [gt_set hl]
  by_cases he : j = l.length
  · subst he; simp
  · rw [if_neg he, h.2 j (by omega)]
    simp [List.getD, List.getElem?_append_left (show j < l.length by omega)]

theorem Holds.eq {a : Array Nat} {l : List Nat} (h : Holds a l) (hl : a.size = l.length) : a = l.toArray := by
  apply gt_ext (by simp [hl])
  intro i hi
  rw [h.2 i (by omega)]
  simp [gt, List.getD]

/-- indices of the present entries among the first `n` -/
def present (mask : Array Bool) (n : Nat) : List Nat := (List.range n).filter (fun i => gt mask i)

theorem present_succ (mask : Array Bool) (n : Nat) :
    present mask (n + 1) = present mask n ++ (if gt mask n then [n] else []) := by
  unfold present
  rw [List.range_succ, List.filter_append]
  congr 1
  cases h : gt mask n <;> simp [h]

theorem present_length_le (mask : Array Bool) (n : Nat) : (present mask n).length ≤ n := by
  unfold present
  exact (List.length_filter_le _ _).trans (by simp)

theorem mem_present {mask : Array Bool} {n i : Nat} : i ∈ present mask n ↔ i < n ∧ gt mask i = true := by
  simp [present]

theorem present_nodup (mask : Array Bool) (n : Nat) : (present mask n).Nodup :=
  List.nodup_range.filter _

theorem present_length_mono (mask : Array Bool) {m n : Nat} (h : m ≤ n) : (present mask m).length ≤ (present mask n).length := by
  induction n with
  | zero => have : m = 0 := by omega
            subst this; exact le_rfl
  | succ n ih =>
    rcases Nat.lt_or_ge n m with h' | h'
    · have : m = n + 1 := by omega
      subst this; exact le_rfl
    · rw [present_succ, List.length_append]
      have := ih h'
      omega

/-- the available data fragments, in systematic mode -/
def FecBase.dataList (B : FecBase) (data : Array Bool) : List Nat := if B.sys then present data B.n_data else []

/-- the parity fragments used -/
def FecBase.parList (B : FecBase) (data parities : Array Bool) : List Nat :=
  (present parities B.n_outputs).take (B.n_data - (B.dataList data).length)

/-- the numbers of the fragments used -/
def FecBase.idList (B : FecBase) (data parities : Array Bool) : List Nat :=
  B.dataList data ++ (B.parList data parities).map (fun i => if B.sys then B.n_data + i else i)

theorem FecBase.dataList_length_le (B : FecBase) (data : Array Bool) : (B.dataList data).length ≤ B.n_data := by
  unfold dataList
  split
  · exact present_length_le _ _
  · simp

theorem FecBase.selectFragments_spec (B : FecBase) (hk : 0 < B.n_data) {data parities : Array Bool} (mem : Nat → Nat)
    (hd : B.sys = true → B.n_data ≤ data.size) (hp : B.n_outputs ≤ parities.size) :
    B.selectFragments data parities mem = .ok (
      if (B.dataList data).length = B.n_data then .allData
      else if (B.dataList data).length + (present parities B.n_outputs).length < B.n_data then .tooFew
      else .use (B.dataList data ++ (B.parList data parities).map (fun i => if B.sys then B.n_data + i else i)).toArray
        (B.parList data parities).toArray (B.dataList data).length) := by
  have hnd := B.dataList_length_le data
  obtain ⟨ids0, e0, z0, H0⟩ : ∃ ids, (if B.sys then
      forN B.n_data (fresh mem B.n_data, 0) (fun i s => do
        let present ← rd data i
        if present then do
          let ids ← wr s.1 s.2 i
          pure (ids, s.2 + 1)
        else pure s)
      else pure (fresh mem B.n_data, 0)) = .ok (ids, (B.dataList data).length) ∧ ids.size = B.n_data ∧
        Holds ids (B.dataList data) := by
    by_cases hs : B.sys = true
    · rw [if_pos hs]
      obtain ⟨s, e, h1, h2, h3⟩ := forN_inv (n := B.n_data) (s := (fresh mem B.n_data, 0)) (f := fun i s => do
          let present ← rd data i
          if present then do
            let ids ← wr s.1 s.2 i
            pure (ids, s.2 + 1)
          else pure s)
        (I := fun t (s : Array Nat × Nat) => s.1.size = B.n_data ∧ s.2 = (present data t).length ∧ Holds s.1 (present data t))
        ⟨by simp, by simp [present], by simpa [present] using Holds.nil _⟩ (by
          rintro t ⟨a, f⟩ ht ⟨i1, i2, i3⟩
          simp only at i1 i2 i3
          have := hd hs
          rw [rd_gt (by omega), ok_bind, present_succ]
          have hl := present_length_le data t
          cases hm : gt data t with
          | false => exact ⟨(a, f), by simp [pure, Except.pure], i1, by simp [i2], by simpa using i3⟩
          | true =>
            simp only [if_true]
            rw [wr_ok (by omega), ok_bind]
            refine ⟨_, rfl, by simp [i1], by simp [i2], ?_⟩
            simp only [i2]
            exact i3.snoc (by omega) t)
      have hdl : B.dataList data = present data B.n_data := by unfold dataList; rw [if_pos hs]
      rw [hdl]
      exact ⟨s.1, by rw [e, ← h2], h1, h3⟩
    · have hdl : B.dataList data = [] := by unfold dataList; rw [if_neg hs]
      rw [if_neg hs, hdl]
      exact ⟨_, rfl, by simp, Holds.nil _⟩
  unfold selectFragments
  simp only
  rw [e0, ok_bind]
  simp only
  by_cases hall : (B.dataList data).length = B.n_data
  · have hs : B.sys = true := by
      by_contra h
      unfold dataList at hall
      rw [if_neg h] at hall
      simp at hall; omega
    rw [if_pos ⟨hs, hall⟩, if_pos hall]; rfl
  · rw [if_neg (fun h => hall h.2), if_neg hall, if_pos (by omega)]
    set dl := B.dataList data with hdl
    obtain ⟨s, e, h1, h2, h3, h4, h5, h6⟩ := forN_inv (n := B.n_outputs)
      (s := (ids0, fresh mem (B.n_data - dl.length), dl.length, 0)) (f := fun i s =>
        if s.2.2.1 = B.n_data then .ok s else do
          let present ← rd parities i
          if present then do
            let ids ← wr s.1 s.2.2.1 (if B.sys then B.n_data + i else i)
            let apar ← wr s.2.1 s.2.2.2 i
            pure (ids, apar, s.2.2.1 + 1, s.2.2.2 + 1)
          else pure s)
      (I := fun t (s : Array Nat × Array Nat × Nat × Nat) => s.1.size = B.n_data ∧ s.2.1.size = B.n_data - dl.length ∧
        s.2.2.2 = ((present parities t).take (B.n_data - dl.length)).length ∧ s.2.2.1 = dl.length + s.2.2.2 ∧
        Holds s.1 (dl ++ ((present parities t).take (B.n_data - dl.length)).map (fun i => if B.sys then B.n_data + i else i)) ∧
        Holds s.2.1 ((present parities t).take (B.n_data - dl.length)))
      ⟨z0, by simp, by simp [present], by simp, by simpa [present] using H0, by simpa [present] using Holds.nil _⟩ (by
        rintro t ⟨a, b, f, g⟩ ht ⟨i1, i2, i3, i4, i5, i6⟩
        simp only at i1 i2 i3 i4 i5 i6
        have hl := present_length_le parities t
        by_cases hfull : f = B.n_data
        · rw [if_pos hfull]
          have : B.n_data - dl.length ≤ (present parities t).length := by
            rw [List.length_take] at i3; omega
          refine ⟨_, rfl, i1, i2, ?_⟩
          have hEq : (present parities (t + 1)).take (B.n_data - dl.length) = (present parities t).take (B.n_data - dl.length) := by
            rw [present_succ, List.take_append_of_le_length this]
          rw [hEq]
          exact ⟨i3, i4, i5, i6⟩
        · rw [if_neg hfull, rd_gt (by omega), ok_bind]
          have hlt : (present parities t).length < B.n_data - dl.length := by
            rw [List.length_take] at i3; omega
          have ht1 : (present parities t).take (B.n_data - dl.length) = present parities t := List.take_of_length_le (by omega)
          rw [ht1] at i3 i5 i6
          have ht2 : (present parities (t + 1)).take (B.n_data - dl.length) = present parities (t + 1) := by
            apply List.take_of_length_le
            rw [present_succ, List.length_append]
            split
            · simp; omega
            · simp; omega
          rw [ht2, present_succ]
          cases hm : gt parities t with
          | false => exact ⟨_, rfl, i1, i2, by simp [i3], by simp [i4], by simpa using i5, by simpa using i6⟩
          | true =>
            simp only [if_true]
            rw [wr_ok (by omega), ok_bind, wr_ok (by omega), ok_bind]
            refine ⟨_, rfl, by simp [i1], by simp [i2], by simp [i3], by simp only; omega, ?_, ?_⟩
            · simp only [i4, i3]
              rw [List.map_append, ← List.append_assoc]
              have := i5.snoc (by simp; omega) (if B.sys then B.n_data + t else t)
              simpa using this
            · simp only [i3]
              exact i6.snoc (by omega) t)
    rw [e, ok_bind]
    obtain ⟨a, b, f, g⟩ := s
    simp only at h1 h2 h3 h4 h5 h6 ⊢
    rw [List.length_take] at h3
    by_cases hfew : dl.length + (present parities B.n_outputs).length < B.n_data
    · rw [if_pos (by omega), if_pos hfew]; rfl
    · rw [if_neg (by omega), if_neg hfew]
      have hpl : B.parList data parities = (present parities B.n_outputs).take (B.n_data - dl.length) := rfl
      rw [hpl, ← h5.eq (by simp; omega), ← h6.eq (by simp; omega)]
      rfl

theorem maxLen_ge {a : Array (Option (List Nat))} {i : Nat} {s : List Nat} (h : gt a i = some s) : s.length ≤ maxLen a := by
  have hi : i < a.size := by
    by_contra hc
    simp [gt, show ¬ i < a.size from hc] at h
  have hmem : some s ∈ a.toList := by
    rw [← h, gt_eq hi]; exact Array.getElem_mem_toList hi
  unfold maxLen
  rw [← Array.foldl_toList]
  generalize a.toList = l at hmem
  have hmono : ∀ (l : List (Option (List Nat))) m, m ≤ l.foldl (fun m s => max m (s.getD []).length) m := by
    intro l
    induction l with
    | nil => intro m; exact le_rfl
    | cons x l ih => intro m; exact le_trans (le_max_left _ _) (ih _)
  have : ∀ (l : List (Option (List Nat))) m, some s ∈ l → s.length ≤ l.foldl (fun m s => max m (s.getD []).length) m := by
    intro l
    induction l with
    | nil => intro m h; simp at h
    | cons x l ih =>
      intro m h
      rcases List.mem_cons.mp h with h | h
      · subst h
        exact le_trans (le_max_right _ _) (hmono _ _)
      · exact ih _ h
  exact this l 0 hmem

namespace Fec
variable {Γ : Type} {E : Fec Γ} {st : Array Nat → Nat → Nat} {mk : Array Nat → Nat → Option Nat} {A : Array Nat → Prop}

theorem decWrite_spec {w N : Nat} (hw : WordSize w) {output : Array Nat} {outs : Array (Option (List Nat))}
    (h1 : N ≤ output.size) (h2 : N ≤ outs.size) :
    ∃ r, writeData w N output outs = .ok r ∧ r.size = outs.size ∧
      ∀ i, i < N → gt r i = (gt outs i).map (fun s => s ++ leBytes w (gt output i)) := by
  have := forN_inv (n := N) (s := outs) (f := fun i outs => do
        let o ← rd outs i
        match o with
        | none => pure outs
        | some s => do
          let v ← rd output i
          let s ← writew w v s
          wr outs i (some s)) (I := fun t (r : Array (Option (List Nat))) => r.size = outs.size ∧
    (∀ i, i < t → gt r i = (gt outs i).map (fun s => s ++ leBytes w (gt output i))) ∧ ∀ i, t ≤ i → gt r i = gt outs i)
    ⟨rfl, by simp, by simp⟩ (by
      rintro t r ht ⟨i1, i2, i3⟩
      rw [rd_gt (a := r) (by omega), ok_bind, i3 t le_rfl]
      cases ho : gt outs t with
      | none =>
        refine ⟨r, rfl, i1, ?_, fun i hi => i3 i (by omega)⟩
        intro i hi
        by_cases h : i = t
        · subst h; rw [i3 i le_rfl, ho]; rfl
        · exact i2 i (by omega)
      | some s =>
        simp only
        rw [rd_gt (a := output) (by omega), ok_bind, writew_spec hw, ok_bind, wr_ok (by omega)]
        refine ⟨_, rfl, by simp [i1], ?_, ?_⟩
        · intro i hi
          rw [gt_set (by omega)]
          by_cases h : i = t
          · subst h; rw [if_pos rfl, ho]; rfl
          · rw [if_neg h]; exact i2 i (by omega)
        · intro i hi
          rw [gt_set (by omega), if_neg (by omega)]; exact i3 i (by omega))
  obtain ⟨r, e, h1, h2, _⟩ := this
  exact ⟨r, e, h1, h2⟩

/-- the loop of the decoder: `S i` is the stream of the `i`-th selected fragment -/
theorem decLoop_spec {k nd w T N : Nat} {rows : Nat → Array Nat} {ids apar : Array Nat} {props : Array Properties}
    {Good : Γ → Nat → Prop} {S : Nat → List Nat} {O : Nat → Option (List Nat)} {sys : Bool}
    (hw : WordSize w) (hsys : E.base.sys = sys) (hk : E.base.n_data = k) (hEw : E.base.word_size = w)
    (hN : k ≤ N) (hnd : nd < k) (hnd0 : sys = false → nd = 0) (hids : ∀ i j, i < nd → j < nd → gt ids i = gt ids j → i = j)
    (hidsz : nd ≤ ids.size)
    (hapar : ∀ i j, i < k - nd → j < k - nd → gt apar i = gt apar j → i = j) (haparz : k - nd ≤ apar.size)
    (hS1 : ∀ i, i < k → T * w ≤ (S i).length) (hS2 : ∃ i, i < k ∧ (S i).length < (T + 1) * w)
    (hdec : ∀ {t : Nat} {C : Γ} {out words : Array Nat}, t < T → Good C t → out.size = k → words.size = N →
        (∀ i, i < k → gt words i = wordAt w (S i) t) →
        ∃ C' r, E.decode C out props t words = .ok (C', r) ∧ r.size = k ∧ Good C' (t + 1) ∧
          ∀ i, i < k → gt r i = gt (rows t) i)
    {d : Nat} : ∀ {t fuel : Nat} {datas pars outs : Array (Option (List Nat))} {C : Γ} {words output : Array Nat},
      t + d = T → d < fuel → (∀ i, i < nd → gt ids i < datas.size ∧ gt datas (gt ids i) = some ((S i).drop (t * w))) →
      (∀ i, i < k - nd → gt apar i < pars.size ∧ gt pars (gt apar i) = some ((S (nd + i)).drop (t * w))) →
      outs.size = k → (∀ i, i < k → gt outs i = (O i).map (fun s => s ++ flat w (fun t => gt (rows t) i) t)) →
      Good C t → words.size = N → output.size = k →
      ∃ outs', E.decLoop ids apar nd fuel datas pars outs props C words output t = .ok outs' ∧ outs'.size = k ∧
        ∀ i, i < k → gt outs' i = (O i).map (fun s => s ++ flat w (fun t => gt (rows t) i) T) := by
  have hwp := hw.pos
  -- the two reads of a row
  have hread : ∀ (t : Nat) (datas pars : Array (Option (List Nat))) (words : Array Nat), k ≤ words.size →
      (∀ i, i < nd → gt ids i < datas.size ∧ gt datas (gt ids i) = some ((S i).drop (t * w))) →
      (∀ i, i < k - nd → gt apar i < pars.size ∧ gt pars (gt apar i) = some ((S (nd + i)).drop (t * w))) →
      ∃ datas' ws1 c1, (if E.base.sys then readRow w nd 0 (fun i => rd ids i) datas words else pure (datas, words, true))
          = .ok (datas', ws1, c1) ∧ ws1.size = words.size ∧ (c1 = true ↔ ∀ i, i < nd → (t + 1) * w ≤ (S i).length) ∧
        (c1 = true → (∀ i, i < nd → gt ids i < datas'.size ∧ gt datas' (gt ids i) = some ((S i).drop ((t + 1) * w))) ∧
          ∃ pars' ws2 c2, readRow w (k - nd) nd (fun i => rd apar i) pars ws1 = .ok (pars', ws2, c2) ∧
            ws2.size = words.size ∧ (c2 = true ↔ ∀ i, i < k - nd → (t + 1) * w ≤ (S (nd + i)).length) ∧
            (c2 = true → (∀ i, i < k - nd → gt apar i < pars'.size ∧
                gt pars' (gt apar i) = some ((S (nd + i)).drop ((t + 1) * w))) ∧
              ∀ i, i < k → gt ws2 i = wordAt w (S i) t)) := by
    intro t datas pars words hws h1 h2
    have hlen : ∀ n : Nat, ((S n).length ≥ (t + 1) * w ↔ w ≤ ((S n).drop (t * w)).length) := by
      intro n
      rw [List.length_drop, Nat.add_mul]
      omega
    have hdd : ∀ n, ((S n).drop (t * w)).drop w = (S n).drop ((t + 1) * w) := by
      intro n; rw [List.drop_drop, Nat.add_mul, Nat.one_mul]
    obtain ⟨datas', ws1, c1, e1, z1, z2, hc1, hr1⟩ : ∃ datas' ws1 c1,
        (if E.base.sys then readRow w nd 0 (fun i => rd ids i) datas words else pure (datas, words, true))
          = .ok (datas', ws1, c1) ∧ datas'.size = datas.size ∧ ws1.size = words.size ∧
          (c1 = true ↔ ∀ i, i < nd → w ≤ ((S i).drop (t * w)).length) ∧
          (c1 = true → (∀ i, i < nd → gt datas' (gt ids i) = some (((S i).drop (t * w)).drop w)) ∧
            (∀ i, i < nd → gt ws1 i = leVal (((S i).drop (t * w)).take w))) := by
      by_cases hs : E.base.sys = true
      · rw [if_pos hs]
        obtain ⟨a, b, c, e, z1, z2, hc, hr⟩ := readRow_spec (w := w) (count := nd) (dst := 0)
          (idx := fun i => rd ids i) (ix := fun i => gt ids i) (streams := datas) (words := words)
          (R := fun i => (S i).drop (t * w)) hw (fun i hi => rd_gt (by omega)) hids (fun i hi => (h1 i hi).1)
          (fun i hi => (h1 i hi).2) (by omega)
        refine ⟨a, b, c, e, z1, z2, hc, fun h => ?_⟩
        obtain ⟨r1, r2, r3, r4⟩ := hr h
        exact ⟨r1, fun i hi => by have := r3 i hi; rwa [Nat.zero_add] at this⟩
      · rw [if_neg hs]
        have : nd = 0 := hnd0 (by rw [← hsys]; simpa using hs)
        subst this
        exact ⟨datas, words, true, rfl, rfl, rfl, by simp, by simp⟩
    refine ⟨datas', ws1, c1, e1, z2, ?_, fun h => ?_⟩
    · rw [hc1]
      exact ⟨fun h i hi => (hlen i).mpr (h i hi), fun h i hi => (hlen i).mp (h i hi)⟩
    · obtain ⟨r1, r3⟩ := hr1 h
      refine ⟨fun i hi => ⟨by rw [z1]; exact (h1 i hi).1, by rw [r1 i hi, hdd]⟩, ?_⟩
      obtain ⟨a, b, c, e, y1, y2, hc, hr⟩ := readRow_spec (w := w) (count := k - nd) (dst := nd)
          (idx := fun i => rd apar i) (ix := fun i => gt apar i) (streams := pars) (words := ws1)
          (R := fun i => (S (nd + i)).drop (t * w)) hw (fun i hi => rd_gt (by omega)) hapar (fun i hi => (h2 i hi).1)
          (fun i hi => (h2 i hi).2) (by omega)
      refine ⟨a, b, c, e, by omega, ?_, fun h' => ?_⟩
      · rw [hc]
        exact ⟨fun h i hi => (hlen _).mpr (h i hi), fun h i hi => (hlen _).mp (h i hi)⟩
      · obtain ⟨q1, q2, q3, q4⟩ := hr h'
        refine ⟨fun i hi => ⟨by rw [y1]; exact (h2 i hi).1, by rw [q1 i hi, hdd]⟩, ?_⟩
        intro i hi
        rcases Nat.lt_or_ge i nd with hlt | hge
        · rw [q4 i hlt, r3 i hlt]; rfl
        · have := q3 (i - nd) (by omega)
          rw [show nd + (i - nd) = i by omega] at this
          rw [this]; rfl
  induction d with
  | zero =>
    intro t fuel datas pars outs C words output ht hfuel hda hpa ho1 ho2 hC hws hos
    have htT : t = T := by omega
    subst htT
    obtain ⟨fuel, rfl⟩ : ∃ f, fuel = f + 1 := ⟨fuel - 1, by omega⟩
    refine ⟨outs, ?_, ho1, ho2⟩
    obtain ⟨datas', ws1, c1, e1, _, hc1, h1⟩ := hread t datas pars (Array.replicate words.size 0) (by simp; omega) hda hpa
    unfold decLoop
    simp only [hEw, hk]
    by_cases hs : E.base.sys = true
    · rw [if_pos hs] at e1 ⊢
      rw [e1, ok_bind]
      cases c1 with
      | false => simp only; rw [if_neg (by simp)]; rfl
      | true =>
        obtain ⟨_, pars', ws2, c2, e2, _, hc2, _⟩ := h1 rfl
        have : c2 = false := by
          by_contra hne
          obtain ⟨i, hi, hl⟩ := hS2
          rcases Nat.lt_or_ge i nd with hlt | hge
          · exact absurd (hc1.mp rfl i hlt) (by omega)
          · have h3 := (hc2.mp (by simpa using hne)) (i - nd) (by omega)
            rw [show nd + (i - nd) = i by omega] at h3
            omega
        subst this
        simp only
        rw [if_pos trivial, e2, ok_bind]
        simp only
        rw [if_neg (by simp)]; rfl
    · rw [if_neg hs] at e1 ⊢
      rw [e1, ok_bind]
      cases c1 with
      | false => simp only; rw [if_neg (by simp)]; rfl
      | true =>
        obtain ⟨_, pars', ws2, c2, e2, _, hc2, _⟩ := h1 rfl
        have : c2 = false := by
          by_contra hne
          obtain ⟨i, hi, hl⟩ := hS2
          rcases Nat.lt_or_ge i nd with hlt | hge
          · exact absurd (hc1.mp rfl i hlt) (by omega)
          · have h3 := (hc2.mp (by simpa using hne)) (i - nd) (by omega)
            rw [show nd + (i - nd) = i by omega] at h3
            omega
        subst this
        simp only
        rw [if_pos trivial, e2, ok_bind]
        simp only
        rw [if_neg (by simp)]; rfl
  | succ d ih =>
    intro t fuel datas pars outs C words output ht hfuel hda hpa ho1 ho2 hC hws hos
    obtain ⟨fuel, rfl⟩ : ∃ f, fuel = f + 1 := ⟨fuel - 1, by omega⟩
    obtain ⟨datas', ws1, c1, e1, z1, hc1, h1⟩ := hread t datas pars (Array.replicate words.size 0) (by simp; omega) hda hpa
    have hTw : (t + 1) * w ≤ T * w := Nat.mul_le_mul_right _ (by omega)
    have : c1 = true := hc1.mpr (fun i hi => le_trans hTw (hS1 i (by omega)))
    subst this
    obtain ⟨hda', pars', ws2, c2, e2, z2, hc2, h2⟩ := h1 rfl
    have : c2 = true := hc2.mpr (fun i hi => le_trans hTw (hS1 (nd + i) (by omega)))
    subst this
    obtain ⟨hpa', hwords⟩ := h2 rfl
    have hz2 : ws2.size = N := by rw [z2]; simp [hws]
    obtain ⟨C', r, er, sr, hC', hr⟩ := hdec (t := t) (C := C) (out := output) (words := ws2) (by omega) hC hos hz2 hwords
    obtain ⟨outs', eo, so, ho⟩ := decWrite_spec (N := k) hw (output := r) (outs := outs) (by omega) (by omega)
    obtain ⟨res, ef, hres⟩ := ih (t := t + 1) (fuel := fuel) (datas := datas') (pars := pars') (outs := outs') (C := C')
      (words := ws2) (output := r) (by omega) (by omega) hda' hpa' (by omega) (by
        intro i hi
        rw [ho i hi, ho2 i hi, hr i hi]
        cases O i with
        | none => rfl
        | some s => simp only [Option.map_some, flat_succ, List.append_assoc])
      hC' hz2 sr
    refine ⟨res, ?_, hres⟩
    unfold decLoop
    simp only [hEw, hk]
    by_cases hs : E.base.sys = true
    · rw [if_pos hs] at e1 ⊢
      rw [e1, ok_bind]
      simp only
      rw [if_pos trivial, e2, ok_bind]
      simp only
      rw [if_pos trivial, er, ok_bind]
      simp only
      rw [eo, ok_bind, ef]
    · rw [if_neg hs] at e1 ⊢
      rw [e1, ok_bind]
      simp only
      rw [if_pos trivial, e2, ok_bind]
      simp only
      rw [if_pos trivial, er, ok_bind]
      simp only
      rw [eo, ok_bind, ef]

theorem getD_ne_of_nodup {l : List Nat} (h : l.Nodup) {i j : Nat} (hi : i < l.length) (hj : j < l.length)
    (he : l.getD i 0 = l.getD j 0) : i = j := by
  rw [List.getD_eq_getElem _ _ hi, List.getD_eq_getElem _ _ hj] at he
  exact (List.Nodup.getElem_inj_iff h).mp he

theorem gt_toArray (l : List Nat) (i : Nat) : gt l.toArray i = l.getD i 0 := by
  simp [gt, List.getD]

theorem isSome_mask {a : Array (Option (List Nat))} {i : Nat} (h : gt (a.map Option.isSome) i = true) :
    i < a.size ∧ ∃ s, gt a i = some s := by
  have hi : i < a.size := by
    by_contra hc
    simp [gt, show ¬ i < a.size from hc] at h
  refine ⟨hi, ?_⟩
  rw [gt_eq (by simpa using hi)] at h
  rw [gt_eq hi]
  simp only [Array.getElem_map] at h
  exact Option.isSome_iff_exists.mp h

/-- all that decoding of horizontal streams can do, given fragments of an encoding -/
theorem decode_streams_horizontal_spec (hE : E.HSpec st mk A) {D : Nat → List Nat} {T : Nat}
    {datas pars outs : Array (Option (List Nat))} {props : Array Properties} (mem : Nat → Nat)
    (hD : ∀ i, i < E.base.n_data → ∀ x ∈ D i, x < 256) (hT : Rows E.base.word_size E.base.n_data D T)
    (h1 : E.base.sys = true → datas.size = E.base.n_data) (h2 : pars.size = E.base.n_outputs)
    (h3 : props.size = E.base.n_outputs) (h4 : outs.size = E.base.n_data)
    (hdat : E.base.sys = true → ∀ i s, gt datas i = some s → s = D i)
    (hpar : ∀ f s, f < E.base.n_outputs → gt pars f = some s →
      s = flat E.base.word_size (fun t => st (rowAt E.base.word_size E.base.n_data D t) f) T ∧
      gt props f = ⟨marksOf (fun t => mk (rowAt E.base.word_size E.base.n_data D t) f) T⟩)
    (hA : (E.base.dataList (datas.map Option.isSome)).length ≠ E.base.n_data →
      E.base.n_data ≤ (E.base.dataList (datas.map Option.isSome)).length +
          (present (pars.map Option.isSome) E.base.n_outputs).length →
      A (E.base.idList (datas.map Option.isSome) (pars.map Option.isSome)).toArray) :
    ∃ res, E.decode_streams_horizontal datas pars props outs mem = .ok res ∧
      (if (E.base.dataList (datas.map Option.isSome)).length = E.base.n_data then res = (true, outs)
       else if (E.base.dataList (datas.map Option.isSome)).length +
          (present (pars.map Option.isSome) E.base.n_outputs).length < E.base.n_data then res = (false, outs)
       else res.1 = true ∧ res.2.size = E.base.n_data ∧ ∀ i, i < E.base.n_data →
          gt res.2 i = (gt outs i).map (fun s => s ++ (D i).take (T * E.base.word_size))) := by
  have hk := hE.kpos
  have hw := hE.w
  have hwp := hw.pos
  have hsel := E.base.selectFragments_spec hk (data := datas.map Option.isSome) (parities := pars.map Option.isSome) mem
    (fun h => by simp [h1 h]) (by simp [h2])
  set k := E.base.n_data with hkd
  set w := E.base.word_size with hwd
  set dl := E.base.dataList (datas.map Option.isSome) with hdl
  set pl := E.base.parList (datas.map Option.isSome) (pars.map Option.isSome) with hpl
  have hred : ∀ (f : Select → Res (Bool × Array (Option (List Nat)))),
      (do
        if E.base.sys then cassert (decide (datas.size = k)) else pure ()
        cassert (decide (pars.size = E.base.n_outputs))
        cassert (decide (props.size = E.base.n_outputs))
        cassert (decide (outs.size = k))
        let sel ← E.base.selectFragments (datas.map Option.isSome) (pars.map Option.isSome) mem
        f sel) = (E.base.selectFragments (datas.map Option.isSome) (pars.map Option.isSome) mem >>= f) := by
    intro f
    by_cases hs : E.base.sys = true
    · simp [hs, cassert, h1 hs, h2, h3, h4]
    · simp only [hs, Bool.false_eq_true, if_false, cassert, h2, h3, h4, decide_true, if_true]
      rfl
  have hgo : E.decode_streams_horizontal datas pars props outs mem =
      (E.base.selectFragments (datas.map Option.isSome) (pars.map Option.isSome) mem >>= fun sel =>
        match sel with
        | .allData => pure (true, outs)
        | .tooFew => pure (false, outs)
        | .use ids apar nd => do
          let n_words := if E.base.sys then k else E.base.code_len
          let (C, props) ← E.init_context_dec ids props mem
          let outs ← E.decLoop ids apar nd (maxLen datas + maxLen pars + 2) datas pars outs props C
            (fresh mem n_words) (fresh mem k) 0
          pure (true, outs)) := hred _
  rw [hgo, hsel, ok_bind]
  by_cases hall : dl.length = k
  · exact ⟨(true, outs), by rw [if_pos hall]; rfl, by rw [if_pos hall]⟩
  by_cases hfew : dl.length + (present (pars.map Option.isSome) E.base.n_outputs).length < k
  · exact ⟨(false, outs), by rw [if_neg hall, if_pos hfew]; rfl, by rw [if_neg hall, if_pos hfew]⟩
  simp only [if_neg hall, if_neg hfew]
  have hdle : dl.length ≤ k := E.base.dataList_length_le _
  have hpll : pl.length = k - dl.length := by
    rw [hpl]; unfold FecBase.parList; rw [List.length_take, ← hdl]; omega
  have hpmem : ∀ i, i < pl.length → pl.getD i 0 < E.base.n_outputs ∧ ∃ s, gt pars (pl.getD i 0) = some s := by
    intro i hi
    rw [List.getD_eq_getElem _ _ hi]
    have h : pl[i] ∈ present (pars.map Option.isSome) E.base.n_outputs := List.mem_of_mem_take (List.getElem_mem hi)
    obtain ⟨q1, q2⟩ := mem_present.mp h
    exact ⟨q1, (isSome_mask q2).2⟩
  have hpnd : pl.Nodup := (present_nodup _ _).sublist (List.take_sublist _ _)
  have hdmem : ∀ i, i < dl.length → E.base.sys = true ∧ dl.getD i 0 < k ∧ ∃ s, gt datas (dl.getD i 0) = some s := by
    intro i hi
    have hs : E.base.sys = true := by
      by_contra h
      rw [hdl] at hi; unfold FecBase.dataList at hi; rw [if_neg h] at hi; simp at hi
    refine ⟨hs, ?_⟩
    rw [List.getD_eq_getElem _ _ hi]
    have h : dl[i] ∈ present (datas.map Option.isSome) k := by
      have he : ∀ x, x ∈ dl → x ∈ present (datas.map Option.isSome) k := by
        rw [hdl]; unfold FecBase.dataList; rw [if_pos hs]; exact fun x hx => hx
      exact he _ (List.getElem_mem hi)
    obtain ⟨q1, q2⟩ := mem_present.mp h
    exact ⟨q1, (isSome_mask q2).2⟩
  have hdnd : dl.Nodup := by
    rw [hdl]; unfold FecBase.dataList
    split
    · exact present_nodup _ _
    · simp
  set ids : Array Nat := (dl ++ pl.map (fun i => if E.base.sys then k + i else i)).toArray with hids
  have hidl : ∀ i, i < dl.length → gt ids i = dl.getD i 0 := by
    intro i hi
    rw [hids, gt_toArray]
    simp [List.getD, List.getElem?_append_left hi]
  have hidr : ∀ i, dl.length ≤ i → i < k → gt ids i = (if E.base.sys then k + pl.getD (i - dl.length) 0 else pl.getD (i - dl.length) 0) := by
    intro i hi hik
    rw [hids, gt_toArray]
    have : i - dl.length < pl.length := by omega
    simp [List.getD, List.getElem?_append_right hi, this]
  have hnout : E.base.sys = true ∨ (E.base.sys = false ∧ dl.length = 0) := by
    by_cases hs : E.base.sys = true
    · exact .inl hs
    · refine .inr ⟨by simpa using hs, ?_⟩
      rw [hdl]; unfold FecBase.dataList; rw [if_neg hs]; rfl
  have hvalid : ValidIds k (if E.base.sys then k + E.base.n_outputs else E.base.n_outputs) ids := by
    refine ⟨by rw [hids]; simp; omega, ?_, ?_⟩
    · intro i j hi hj he
      rcases Nat.lt_or_ge i dl.length with hi' | hi' <;> rcases Nat.lt_or_ge j dl.length with hj' | hj'
      · rw [hidl i hi', hidl j hj'] at he
        exact getD_ne_of_nodup hdnd hi' hj' he
      · rw [hidl i hi', hidr j hj' hj, if_pos (hdmem i hi').1] at he
        have := (hdmem i hi').2.1
        omega
      · rw [hidr i hi' hi, hidl j hj', if_pos (hdmem j hj').1] at he
        have := (hdmem j hj').2.1
        omega
      · rw [hidr i hi' hi, hidr j hj' hj] at he
        have he' : pl.getD (i - dl.length) 0 = pl.getD (j - dl.length) 0 := by
          by_cases hs : E.base.sys = true
          · rw [if_pos hs, if_pos hs] at he; omega
          · rw [if_neg hs, if_neg hs] at he; exact he
        have := getD_ne_of_nodup hpnd (by omega) (by omega) he'
        omega
    · intro i hi
      rcases Nat.lt_or_ge i dl.length with hi' | hi'
      · rw [hidl i hi', if_pos (hdmem i hi').1]
        have := (hdmem i hi').2.1
        omega
      · rw [hidr i hi' hi]
        have := (hpmem (i - dl.length) (by omega)).1
        split <;> omega
  obtain ⟨Good, C, props', eC, hG0, hdec⟩ := hE.dec (rows := rowAt w k D) (T := T) (ids := ids) (props := props) mem
    (fun t _ => rowAt_isRow hD t) hvalid (hA hall (by omega)) h3 (by
      intro i f hi hf he
      have hf' : ∃ s, gt pars f = some s := by
        rcases Nat.lt_or_ge i dl.length with hi' | hi'
        · have hlt := (hdmem i hi').2.1
          rw [hidl i hi', if_pos (hdmem i hi').1] at he
          omega
        · rw [hidr i hi' hi] at he
          have he' : pl.getD (i - dl.length) 0 = f := by
            by_cases hs : E.base.sys = true
            · rw [if_pos hs, if_pos hs] at he; omega
            · rw [if_neg hs, if_neg hs] at he; exact he
          rw [← he']
          exact (hpmem _ (by omega)).2
      obtain ⟨s, hs⟩ := hf'
      exact (hpar f s hf hs).2)
  -- the stream of the i-th selected fragment
  set S : Nat → List Nat := fun i => if i < dl.length then D (gt ids i)
    else flat w (fun t => st (rowAt w k D t) (pl.getD (i - dl.length) 0)) T with hS
  have hfv : ∀ i t, i < k → t < T → wordAt w (S i) t = fragVal E.base.sys k st (rowAt w k D t) (gt ids i) := by
    intro i t hi ht
    simp only [hS]
    unfold fragVal
    rcases Nat.lt_or_ge i dl.length with hi' | hi'
    · have hm := hdmem i hi'
      rw [if_pos hi', if_pos hm.1, if_pos (by rw [hidl i hi']; exact hm.2.1), rowAt_gt (by rw [hidl i hi']; exact hm.2.1)]
    · rw [if_neg (by omega), wordAt_flat ht (hE.lt (rowAt_isRow hD t) (hpmem (i - dl.length) (by omega)).1 : st (rowAt w k D t) (pl.getD (i - dl.length) 0) < _), hidr i hi' hi]
      by_cases hs : E.base.sys = true
      · simp only [hs, if_true]
        rw [if_neg (by omega), Nat.add_sub_cancel_left]
      · simp only [hs, if_false, Bool.false_eq_true]
  obtain ⟨outs', eo, so, ho⟩ := decLoop_spec (E := E) (k := k) (nd := dl.length) (w := w) (T := T) (N := if E.base.sys then k else E.base.code_len) (rows := rowAt w k D)
    (ids := ids) (apar := pl.toArray) (props := props') (Good := Good) (S := S) (O := gt outs) (sys := E.base.sys)
    hw rfl rfl rfl (by split <;> first | exact le_rfl | (rw [hE.cl]; omega)) (by omega) (fun h => hnout.elim (fun h' => absurd (h.symm.trans h') (by simp)) (fun h' => h'.2))
    (fun i j hi hj he => by
      rw [hidl i hi, hidl j hj] at he
      exact getD_ne_of_nodup hdnd hi hj he) (by rw [hvalid.size]; omega)
    (fun i j hi hj he => by
      rw [gt_toArray, gt_toArray] at he
      exact getD_ne_of_nodup hpnd (by omega) (by omega) he) (by simp; omega)
    (fun i hik => by
      simp only [hS]
      by_cases hi : i < dl.length
      · have hm := hdmem i hi
        rw [if_pos hi, hidl i hi]
        exact hT.full _ hm.2.1
      · rw [if_neg hi, flat_length])
    ⟨dl.length, by omega, by simp only [hS]; rw [if_neg (by omega), flat_length, Nat.add_mul]; omega⟩
    (fun {t C out words} ht hC h5 h6 h7 => hdec ht hC h5 h6 (fun i hi => by rw [h7 i hi, hfv i t hi ht]))
    (d := T) (t := 0) (fuel := maxLen datas + maxLen pars + 2) (datas := datas) (pars := pars) (outs := outs) (C := C)
    (words := fresh mem (if E.base.sys then k else E.base.code_len)) (output := fresh mem k) (by omega) (by
      obtain ⟨q1, s, q2⟩ := hpmem 0 (by omega)
      have h5 := maxLen_ge q2
      rw [(hpar _ _ q1 q2).1, flat_length] at h5
      have : T * 1 ≤ T * w := Nat.mul_le_mul_left _ hwp
      omega)
    (fun i hi => by
      obtain ⟨q1, q2, s, q3⟩ := hdmem i hi
      rw [hidl i hi]
      refine ⟨by rw [h1 q1]; exact q2, ?_⟩
      rw [q3, hdat q1 _ _ q3]
      simp only [hS]
      rw [if_pos hi, hidl i hi]; simp)
    (fun i hi => by
      obtain ⟨q1, s, q2⟩ := hpmem i (by omega)
      rw [gt_toArray]
      refine ⟨by rw [h2]; exact q1, ?_⟩
      rw [q2, (hpar _ _ q1 q2).1]
      simp only [hS]
      rw [if_neg (by omega), Nat.add_sub_cancel_left]; simp)
    h4 (fun i hi => by simp [flat_zero]) hG0 (by rw [fresh_size]) (by simp)
  refine ⟨(true, outs'), ?_, rfl, so, ?_⟩
  · rw [eC, ok_bind]
    simp only
    rw [eo, ok_bind]; rfl
  · intro i hi
    rw [ho i hi]
    congr 1
    funext s
    rw [flat_congr (g := wordAt w (D i)) (fun t _ => rowAt_gt hi), flat_wordAt (hT.full i hi) (hD i hi)]

end Fec
end Quad
