import Verif.Model.Matrix
import Verif.Lemmas.Ring
import Mathlib.Tactic.Ring
import Mathlib.Tactic.Linarith

/-!
# What the operations of `Matrix<T>` do to the entries
-/

namespace Quad.Mat

/-- `M` is an `R` by `C` matrix with entries `f` -/
structure Is (M : Mat) (R C : Nat) (f : Nat → Nat → Nat) : Prop where
  rows : M.n_rows = R
  cols : M.n_cols = C
  size : M.mem.size = R * C
  ent : ∀ i j, i < R → j < C → gt M.mem (i * C + j) = f i j

theorem idx_lt {R C i j : Nat} (hi : i < R) (hj : j < C) : i * C + j < R * C := by
  have : (i + 1) * C ≤ R * C := Nat.mul_le_mul_right _ hi
  rw [Nat.add_mul, Nat.one_mul] at this
  omega

theorem idx_inj {C i j i' j' : Nat} (hj : j < C) (hj' : j' < C) (h : i' * C + j' = i * C + j) : i' = i ∧ j' = j := by
  have h1 := congrArg (· / C) h
  have h2 := congrArg (· % C) h
  simp only [Nat.mul_comm _ C, Nat.mul_add_div (show C > 0 by omega), Nat.mul_add_mod, Nat.mod_eq_of_lt hj,
    Nat.mod_eq_of_lt hj', Nat.div_eq_of_lt hj, Nat.div_eq_of_lt hj'] at h1 h2
  omega

variable {M : Mat} {R C : Nat} {f : Nat → Nat → Nat}

theorem Is.congr (h : Is M R C f) {g : Nat → Nat → Nat} (e : ∀ i j, i < R → j < C → f i j = g i j) : Is M R C g :=
  ⟨h.rows, h.cols, h.size, fun i j hi hj => (h.ent i j hi hj).trans (e i j hi hj)⟩

theorem mk'_is (R C : Nat) (mem : Nat → Nat) : Is (mk' R C mem) R C (fun i j => mem (i * C + j)) :=
  ⟨rfl, rfl, by simp [mk'], fun i j hi hj => by
    unfold mk'
    exact gt_ofFn (idx_lt hi hj)⟩

theorem Is.get (h : Is M R C f) {i j : Nat} (hi : i < R) (hj : j < C) : M.get i j = .ok (f i j) := by
  unfold Mat.get cassert
  rw [h.rows, h.cols]
  simp only [hi, hj, decide_true, if_true, ok_bind]
  rw [rd_gt (by rw [h.size]; exact idx_lt hi hj), h.ent i j hi hj]

theorem Is.set (h : Is M R C f) {i j : Nat} (hi : i < R) (hj : j < C) (v : Nat) :
    ∃ M', M.set i j v = .ok M' ∧ Is M' R C (fun i' j' => if i' = i ∧ j' = j then v else f i' j') := by
  unfold Mat.set cassert
  rw [h.rows, h.cols]
  simp only [hi, hj, decide_true, if_true, ok_bind]
  rw [wr_ok (by rw [h.size]; exact idx_lt hi hj)]
  refine ⟨_, rfl, rfl, rfl, by simp [h.size], ?_⟩
  intro i' j' hi' hj'
  show gt (M.mem.setIfInBounds _ _) _ = _
  rw [gt_set (by rw [h.size]; exact idx_lt hi hj)]
  by_cases e : i' = i ∧ j' = j
  · rw [if_pos (by rw [e.1, e.2]), if_pos e]
  · rw [if_neg (fun e' => e (idx_inj hj hj' e')), if_neg e, h.ent _ _ hi' hj']

/-- a loop over the columns of one row -/
theorem Is.rowLoop (h : Is M R C f) {row : Nat} {body : Nat → Mat → Res Mat} (g : Nat → Nat → Nat)
    (hb : ∀ j M', j < C → Is M' R C (fun i' j' => if j' < j then g i' j' else f i' j') →
      ∃ M'', body j M' = .ok M'' ∧ Is M'' R C (fun i' j' => if j' = j then g i' j' else if j' < j then g i' j' else f i' j')) :
    ∃ M', forN C M body = .ok M' ∧ Is M' R C g := by
  obtain ⟨M', e, i⟩ := forN_inv (f := body) (s := M) (n := C) (I := fun k M' => Is M' R C (fun i' j' => if j' < k then g i' j' else f i' j'))
    (h.congr (fun i j _ _ => by simp)) (fun k M' hk hi => by
      obtain ⟨M'', e, h'⟩ := hb k M' hk hi
      refine ⟨M'', e, h'.congr fun i j _ _ => ?_⟩
      by_cases e1 : j = k
      · simp [e1]
      · by_cases e2 : j < k
        · simp [e1, e2, show j < k + 1 by omega]
        · simp [e1, e2, show ¬ j < k + 1 by omega])
  exact ⟨M', e, i.congr fun i j _ hj => by simp [hj]⟩

theorem Is.swap_rows (h : Is M R C f) {r0 r1 : Nat} (h0 : r0 < R) (h1 : r1 < R) :
    ∃ M', M.swap_rows r0 r1 = .ok M' ∧
      Is M' R C (fun i j => if i = r1 then f r0 j else if i = r0 then f r1 j else f i j) := by
  unfold Mat.swap_rows cassert
  rw [h.rows]
  simp only [h0, h1, decide_true, if_true, ok_bind]
  rw [h.cols]
  refine h.rowLoop (row := 0) _ ?_
  intro j M' hj hi
  rw [hi.get h0 hj, hi.get h1 hj]
  simp only [ok_bind, lt_irrefl, if_false]
  obtain ⟨M1, e1, i1⟩ := hi.set h0 hj (f r1 j)
  obtain ⟨M2, e2, i2⟩ := i1.set h1 hj (f r0 j)
  rw [e1]
  simp only [ok_bind]
  refine ⟨M2, e2, i2.congr ?_⟩
  intro i' j' _ _
  by_cases a : j' = j
  · subst a
    by_cases b : i' = r1
    · simp [b]
    · by_cases c : i' = r0 <;> simp [b, c]
  · by_cases b : j' < j <;> simp [a, b]

theorem Is.mul_row (F : GF) (h : Is M R C f) {r : Nat} (h0 : r < R) (x : Nat) :
    ∃ M', M.mul_row F r x = .ok M' ∧ Is M' R C (fun i j => if i = r then F.mul (f r j) x else f i j) := by
  unfold Mat.mul_row cassert
  rw [h.rows]
  simp only [h0, decide_true, if_true, ok_bind]
  rw [h.cols]
  refine h.rowLoop (row := 0) _ ?_
  intro j M' hj hi
  rw [hi.get h0 hj]
  simp only [ok_bind, lt_irrefl, if_false]
  obtain ⟨M1, e1, i1⟩ := hi.set h0 hj (F.mul (f r j) x)
  refine ⟨M1, e1, i1.congr ?_⟩
  intro i' j' _ _
  by_cases a : j' = j
  · subst a
    by_cases b : i' = r <;> simp [b]
  · by_cases b : j' < j <;> simp [a, b]

theorem Is.add_rows (F : GF) (h : Is M R C f) {s d : Nat} (h0 : s < R) (h1 : d < R) (hne : s ≠ d) (x : Nat) :
    ∃ M', M.add_rows F s d x = .ok M' ∧
      Is M' R C (fun i j => if i = d then F.add (f d j) (F.mul (f s j) x) else f i j) := by
  unfold Mat.add_rows cassert
  rw [h.rows]
  simp only [h0, h1, decide_true, if_true, ok_bind]
  rw [h.cols]
  refine h.rowLoop (row := 0) _ ?_
  intro j M' hj hi
  rw [hi.get h1 hj, hi.get h0 hj]
  simp only [ok_bind, lt_irrefl, if_false]
  obtain ⟨M1, e1, i1⟩ := hi.set h1 hj (F.add (f d j) (F.mul (f s j) x))
  refine ⟨M1, e1, i1.congr ?_⟩
  intro i' j' _ _
  by_cases a : j' = j
  · subst a
    by_cases b : i' = d <;> simp [b]
  · by_cases b : j' < j <;> simp [a, b]

/-- filling an entry per turn, row after row, from the entries already there -/
theorem Is.fill (h : Is M R C f) {body : Nat → Nat → Mat → Res Mat} (g : Nat → Nat → Nat)
    (hb : ∀ i j M', i < R → j < C → Is M' R C (fun i' j' => if i' < i ∨ i' = i ∧ j' < j then g i' j' else f i' j') →
      ∃ M'', body i j M' = .ok M'' ∧ Is M'' R C (fun i' j' => if i' < i ∨ i' = i ∧ j' < j + 1 then g i' j' else f i' j')) :
    ∃ M', forN R M (fun i M => forN M.n_cols M (fun j M => body i j M)) = .ok M' ∧ Is M' R C g := by
  obtain ⟨M', e, i⟩ := forN_inv (f := fun i (M : Mat) => forN M.n_cols M (fun j M => body i j M)) (s := M) (n := R)
    (I := fun k M' => Is M' R C (fun i' j' => if i' < k then g i' j' else f i' j'))
    (h.congr (fun i j _ _ => by simp)) (fun k M' hk hi => by
      rw [hi.cols]
      obtain ⟨M'', e, h'⟩ := forN_inv (f := fun j M => body k j M) (s := M') (n := C)
        (I := fun l M' => Is M' R C (fun i' j' => if i' < k ∨ i' = k ∧ j' < l then g i' j' else f i' j'))
        (hi.congr (fun i j _ _ => by simp)) (fun l M' hl hi => hb k l M' hk hl hi)
      refine ⟨M'', e, h'.congr fun i j _ hj => ?_⟩
      by_cases a : i < k
      · simp [a, show i < k + 1 by omega]
      · by_cases b : i = k
        · subst b; simp [hj]
        · simp [a, b, show ¬ i < k + 1 by omega])
  exact ⟨M', e, i.congr fun i j hi _ => by simp [hi]⟩

/-- filling every entry with a computed value -/
theorem Is.fillSet (h : Is M R C f) {v : Nat → Nat → Mat → Res Nat} (g : Nat → Nat → Nat)
    (hv : ∀ i j M', i < R → j < C → Is M' R C (fun i' j' => if i' < i ∨ i' = i ∧ j' < j then g i' j' else f i' j') →
      v i j M' = .ok (g i j)) :
    ∃ M', forN R M (fun i M => forN M.n_cols M (fun j M => do let x ← v i j M; M.set i j x)) = .ok M' ∧ Is M' R C g := by
  refine h.fill (body := fun i j M => do let x ← v i j M; M.set i j x) g ?_
  intro i j M' hi hj hM
  rw [hv i j M' hi hj hM]
  simp only [ok_bind]
  obtain ⟨M1, e1, i1⟩ := hM.set hi hj (g i j)
  refine ⟨M1, e1, i1.congr ?_⟩
  intro i' j' _ _
  by_cases a : i' = i ∧ j' = j
  · obtain ⟨rfl, rfl⟩ := a; simp
  · rw [if_neg a]
    by_cases b : i' < i ∨ i' = i ∧ j' < j
    · rw [if_pos b, if_pos (by omega)]
    · rw [if_neg b, if_neg (by omega)]

theorem Is.zero_fill (h : Is M R C f) : ∃ M', M.zero_fill = .ok M' ∧ Is M' R C (fun _ _ => 0) := by
  unfold Mat.zero_fill
  rw [h.rows]
  exact h.fillSet (v := fun _ _ _ => .ok 0) _ (fun _ _ _ _ _ _ => rfl)

theorem Is.vandermonde (F : GF) (h : Is M R C f) (he : ∀ i j, i < R → j < C → F.expC i j = .ok (F.exp i j)) :
    ∃ M', M.vandermonde F = .ok M' ∧ Is M' R C (fun i j => F.exp i j) := by
  unfold Mat.vandermonde
  rw [h.rows]
  exact h.fillSet (v := fun i j _ => F.expC i j) _ (fun i j _ hi hj _ => he i j hi hj)

theorem Is.findRow (h : Is M R C f) {j : Nat} (hj : j < C) : ∀ left, left ≤ R →
    ∃ p, M.findRow j left = .ok p ∧ R - left ≤ p ∧ p ≤ R ∧ (∀ i, R - left ≤ i → i < p → f i j = 0) ∧ (p < R → f p j ≠ 0) := by
  intro left
  induction left with
  | zero => intro _; exact ⟨R, by simp [Mat.findRow, h.rows], by omega, le_rfl, fun i h1 h2 => by omega, fun h => by omega⟩
  | succ l ih =>
    intro hl
    unfold Mat.findRow
    rw [h.rows, h.get (by omega) hj]
    simp only [ok_bind]
    by_cases e : f (R - (l + 1)) j = 0
    · rw [if_pos e]
      obtain ⟨p, e1, h1, h2, h3, h4⟩ := ih (by omega)
      refine ⟨p, e1, by omega, h2, fun i hi hp => ?_, h4⟩
      by_cases c : i = R - (l + 1)
      · rw [c]; exact e
      · exact h3 i (by omega) hp
    · rw [if_neg e]
      exact ⟨_, rfl, le_rfl, by omega, fun i h1 h2 => by omega, fun _ => e⟩

theorem Is.findCol (h : Is M R C f) {i : Nat} (hi : i < R) : ∀ left, left ≤ C →
    ∃ p, M.findCol i left = .ok p ∧ C - left ≤ p ∧ p ≤ C ∧ (∀ j, C - left ≤ j → j < p → f i j = 0) ∧ (p < C → f i p ≠ 0) := by
  intro left
  induction left with
  | zero => intro _; exact ⟨C, by simp [Mat.findCol, h.cols], by omega, le_rfl, fun i h1 h2 => by omega, fun h => by omega⟩
  | succ l ih =>
    intro hl
    unfold Mat.findCol
    rw [h.cols, h.get hi (by omega)]
    simp only [ok_bind]
    by_cases e : f i (C - (l + 1)) = 0
    · rw [if_pos e]
      obtain ⟨p, e1, h1, h2, h3, h4⟩ := ih (by omega)
      refine ⟨p, e1, by omega, h2, fun j hj hp => ?_, h4⟩
      by_cases c : j = C - (l + 1)
      · rw [c]; exact e
      · exact h3 j (by omega) hp
    · rw [if_neg e]
      exact ⟨_, rfl, le_rfl, by omega, fun i h1 h2 => by omega, fun _ => e⟩

theorem Is.row_is_identity (h : Is M R C f) {i : Nat} (hi : i < R) :
    ∃ r, M.row_is_identity i = .ok r ∧ (r = true ↔ ∀ j, j < C → f i j = if j = i then 1 else 0) := by
  unfold Mat.row_is_identity cassert
  rw [h.rows]
  simp only [hi, decide_true, if_true, ok_bind]
  rw [h.cols]
  obtain ⟨r, e, hr⟩ := forN_inv (n := C) (s := true) (f := fun j r =>
      if r = false then .ok false else do
      let x ← M.get i j
      pure (decide (x = if j = i then 1 else 0)))
    (I := fun k r => r = true ↔ ∀ j, j < k → f i j = if j = i then 1 else 0) (by simp) (by
      intro k s hk hI
      rcases s with _ | _
      · refine ⟨false, by simp, ?_⟩
        simp only [Bool.false_eq_true, false_iff] at hI ⊢
        exact fun c => hI fun j hj => c j (by omega)
      · rw [h.get hi hk]
        refine ⟨_, rfl, ?_⟩
        simp only [true_iff] at hI
        rw [decide_eq_true_iff]
        constructor
        · intro c j hj
          by_cases e : j = k
          · rw [e]; exact c
          · exact hI j (by omega)
        · intro c; exact c k (by omega))
  exact ⟨r, e, hr⟩

/-- `mul` -/
theorem Is.mul (F : GF) (h : Is M R C f) {out v : Array Nat} (hv : v.size = C) (ho : out.size = R) :
    ∃ o, M.mul F out v = .ok o ∧ o.size = R ∧ ∀ i, i < R → gt o i =
      Nat.rec (gt out i) (fun j y => if j = 0 then F.mul (f i 0) (gt v 0) else F.add y (F.mul (f i j) (gt v j))) C := by
  unfold Mat.mul cassert
  rw [h.rows, h.cols]
  simp only [hv, ho, decide_true, if_true, ok_bind]
  let val : Nat → Nat → Nat := fun i c =>
    Nat.rec (gt out i) (fun j y => if j = 0 then F.mul (f i 0) (gt v 0) else F.add y (F.mul (f i j) (gt v j))) c
  obtain ⟨o, e, h1, h2⟩ := forN_inv (n := R) (s := out) (f := fun i output => forN C output (fun j output => do
      let a ← M.get i j
      let b ← rd v j
      let x := F.mul a b
      if 0 = j then wr output i x
      else do
        let y ← rd output i
        wr output i (F.add y x)))
    (I := fun k o => o.size = R ∧ ∀ i, i < R → gt o i = if i < k then val i C else gt out i) (by simp [ho]) (by
      intro k s hk hI
      dsimp only
      obtain ⟨o, e, h1, h2⟩ := forN_inv (n := C) (s := s) (f := fun j output => do
          let a ← M.get k j
          let b ← rd v j
          let x := F.mul a b
          if 0 = j then wr output k x
          else do
            let y ← rd output k
            wr output k (F.add y x))
        (I := fun l o => o.size = R ∧ ∀ i, i < R → gt o i = if i < k then val i C else if i = k then val k l else gt out i)
        (by
          refine ⟨hI.1, fun i hi => ?_⟩
          rw [hI.2 i hi]
          by_cases a : i = k
          · subst a; simp [val]
          · simp [a]) (by
          intro l s' hl hI'
          dsimp only
          rw [h.get hk hl]
          simp only [ok_bind]
          rw [rd_gt (by omega)]
          simp only [ok_bind]
          have hval : val k (l + 1) = if l = 0 then F.mul (f k 0) (gt v 0) else F.add (val k l) (F.mul (f k l) (gt v l)) := rfl
          by_cases c : 0 = l
          · rw [if_pos c, wr_ok (by omega)]
            refine ⟨_, rfl, by simp [hI'.1], fun i hi => ?_⟩
            rw [gt_set (by omega), hI'.2 i hi]
            by_cases a : i = k
            · subst a; subst c; simp [hval]
            · simp [a]
          · rw [if_neg c, rd_gt (by omega)]
            simp only [ok_bind]
            rw [wr_ok (by omega)]
            refine ⟨_, rfl, by simp [hI'.1], fun i hi => ?_⟩
            rw [gt_set (by omega), hI'.2 i hi, hI'.2 k hk]
            by_cases a : i = k
            · subst a; simp [hval, Ne.symm c]
            · simp [a])
      refine ⟨o, e, h1, fun i hi => ?_⟩
      rw [h2 i hi]
      by_cases a : i < k
      · simp [a, show i < k + 1 by omega]
      · by_cases b : i = k
        · subst b; simp
        · simp [a, b, show ¬ i < k + 1 by omega])
  refine ⟨o, e, h1, fun i hi => ?_⟩
  rw [h2 i hi, if_pos hi]

end Quad.Mat
