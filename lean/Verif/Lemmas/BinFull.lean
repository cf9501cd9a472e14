import Verif.Lemmas.BinObj

/-!
# Table-based binary fields whose elements fill the word type
-/

namespace Quad.BinExt
open Quad

/-- the next element of the loop of `setup_tables` -/
def tabNext (b card poly x : Nat) : Nat :=
  if wrap b (x * 2) &&& card ≠ 0 then wrap b (x * 2) ^^^ poly else wrap b (x * 2)

theorem setup_tables_orbit {b card poly : Nat} {L : List Nat} (junk : Nat → Nat → Nat) (h3 : 3 < card)
    (hL : ∀ x, x ∈ L → x < card ∧ tabNext b card poly x ∈ L ∧ tabNext b card poly x ≠ 1) (h1 : 1 ∈ L) (h2 : 2 ∉ L) :
    ∃ g i, setup_tables b card poly junk = .ok (g, i) ∧ g.size = card ∧ i.size = card ∧ gt g 2 = junk 0 2 ∧
      gt g 1 = 0 ∧ gt i 0 = 1 ∧ gt i 1 = tabNext b card poly 1 := by
  unfold setup_tables
  obtain ⟨s, e, q1, q2, q3, q4, q5, q6, q7, q8⟩ := forN_inv (n := card - 1)
    (s := (Array.ofFn (fun i : Fin card => junk 0 i.1), Array.ofFn (fun i : Fin card => junk 1 i.1), 1))
    (f := fun log (s : Array Nat × Array Nat × Nat) => do
      let gflog ← wr s.1 s.2.2 log
      let gfilog ← wr s.2.1 log s.2.2
      let x := wrap b (s.2.2 * 2)
      pure (gflog, gfilog, if x &&& card ≠ 0 then x ^^^ poly else x))
    (fun k s => s.1.size = card ∧ s.2.1.size = card ∧ s.2.2 ∈ L ∧ gt s.1 2 = junk 0 2 ∧ (k = 0 → s.2.2 = 1) ∧
      (1 ≤ k → s.2.2 ≠ 1 ∧ gt s.1 1 = 0 ∧ gt s.2.1 0 = 1) ∧ (k = 1 → s.2.2 = tabNext b card poly 1) ∧
      (2 ≤ k → gt s.2.1 1 = tabNext b card poly 1))
    ⟨by simp, by simp, h1, by rw [gt_ofFn (by omega)], fun _ => rfl, by omega, by omega, by omega⟩
    (by
      rintro k ⟨g, i, x⟩ hk ⟨q1, q2, q3, q4, q5, q6, q7, q8⟩
      simp only at q1 q2 q3 q4 q5 q6 q7 q8
      obtain ⟨hx1, hx2, hx3⟩ := hL x q3
      simp only
      rw [wr_ok (by omega), ok_bind, wr_ok (by omega), ok_bind]
      refine ⟨_, rfl, by simp [q1], by simp [q2], hx2, ?_, by omega, fun _ => ⟨hx3, ?_, ?_⟩, fun h => ?_, fun h => ?_⟩
      · show gt (g.setIfInBounds x k) 2 = _
        rw [gt_set (by omega), if_neg (fun h => h2 (by rw [h]; exact q3)), q4]
      · show gt (g.setIfInBounds x k) 1 = 0
        rw [gt_set (by omega)]
        split
        · rename_i hx
          rcases Nat.eq_zero_or_pos k with h | h
          · exact h
          · exact absurd hx.symm (q6 h).1
        · rename_i hx
          rcases Nat.eq_zero_or_pos k with h | h
          · exact absurd (q5 h).symm hx
          · exact (q6 h).2.1
      · show gt (i.setIfInBounds k x) 0 = 1
        rw [gt_set (by omega)]
        split
        · rename_i hk0; exact q5 hk0.symm
        · exact (q6 (by omega)).2.2
      · have : k = 0 := by omega
        rw [← q5 this]; rfl
      · show gt (i.setIfInBounds k x) 1 = _
        rw [gt_set (by omega)]
        split
        · rename_i hk1; exact q7 hk1.symm
        · exact q8 (by omega))
  rw [e, ok_bind]
  exact ⟨_, _, rfl, q1, q2, q4, (q6 (by omega)).2.1, (q6 (by omega)).2.2, q8 (by omega)⟩

/-- the elements reached for `BinExtension<uint8_t>(8)` -/
def orbit8 : List Nat := [1, 31, 35, 91, 171, 75, 139, 11]

/-- the elements reached for `BinExtension<uint16_t>(16)` -/
def orbit16 : List Nat := [1, 4105, 12313, 28729, 61561, 61689, 61945, 62457, 63481, 65529, 61433, 53241, 36857, 4089]

theorem full_width {b : Nat} (hb : b = 8 ∨ b = 16) (junk : Nat → Nat → Nat) (junk3 : Nat → Nat → Nat → Nat) :
    ∃ F g1, mk' b b junk junk3 = .ok F ∧ g1 ≠ 2 ∧ (junk 0 2 = 0 → F.mulR 2 1 = .ok 1) ∧ (junk 0 2 = 1 → F.mulR 2 1 = .ok g1) ∧ g1 ≠ 1 := by
  have hp : ∃ (poly : Nat) (L : List Nat), polynomial b b = .ok poly ∧ (∀ x, x ∈ L → x < 2 ^ b - 1 ∧ tabNext b (2 ^ b - 1) poly x ∈ L ∧
      tabNext b (2 ^ b - 1) poly x ≠ 1) ∧ 1 ∈ L ∧ 2 ∉ L ∧ tabNext b (2 ^ b - 1) poly 1 ≠ 2 ∧ tabNext b (2 ^ b - 1) poly 1 ≠ 1 := by
    rcases hb with rfl | rfl
    · exact ⟨_, orbit8, rfl, by decide, by decide, by decide, by decide, by decide⟩
    · exact ⟨_, orbit16, rfl, by decide +kernel, by decide, by decide, by decide +kernel, by decide +kernel⟩
  obtain ⟨poly, L, e1, hL, h1, h2, hg2, hg1⟩ := hp
  have h8 : 255 ≤ 2 ^ b - 1 := by rcases hb with rfl | rfl <;> norm_num
  have hb16 : b ≤ 16 := by omega
  have hb0 : 0 < b := by omega
  obtain ⟨mask, e2, m1, m2⟩ := init_mask_spec (b := b) (n := b) le_rfl (mask := Array.ofFn (fun i : Fin b => junk 2 i.1)) (by simp)
  obtain ⟨g, i, e3, s1, s2, v1, v2, v3, v4⟩ := setup_tables_orbit (b := b) junk (by omega) hL h1 h2
  unfold mk'
  simp only [cassert, le_refl, decide_true, if_true, ok_bind, e1]
  rw [e2, ok_bind, rd_gt (by omega), ok_bind, if_pos hb16, if_pos (by omega), e3, ok_bind]
  refine ⟨_, tabNext b (2 ^ b - 1) poly 1, rfl, hg2, fun h => ?_, fun h => ?_, hg1⟩
  · unfold mulR mulLog
    simp only [Bool.false_eq_true, if_false]
    rw [if_neg (by omega), rd_gt (by omega), ok_bind, rd_gt (by omega), ok_bind, v1, v2, h]
    have : wrap b (0 + 0) = 0 := by simp [wrap]
    rw [this, if_neg (by omega), rd_gt (by omega), v3]
  · unfold mulR mulLog
    simp only [Bool.false_eq_true, if_false]
    rw [if_neg (by omega), rd_gt (by omega), ok_bind, rd_gt (by omega), ok_bind, v1, v2, h]
    have : wrap b (1 + 0) = 1 := Nat.mod_eq_of_lt (by omega)
    rw [this, if_neg (by omega), rd_gt (by omega), v4]

end Quad.BinExt
