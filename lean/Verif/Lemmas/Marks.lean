import Verif.Model.Fec
import Mathlib.Data.List.Sort
import Mathlib.Data.List.Range

/-!
Marks recorded for a sequence of symbols.
-/

namespace Quad

/-- the marks of a sequence: `f t` is the marker of symbol `t`, if it has one -/
def marksOf (f : Nat → Option Nat) (T : Nat) : List (Nat × Nat) :=
  (List.range T).filterMap (fun t => (f t).map (fun m => (t, m)))

/-- adding a mark, if any -/
def Properties.addMark (P : Properties) (off : Nat) : Option Nat → Properties
  | none => P
  | some m => P.add off m

theorem marksOf_zero (f : Nat → Option Nat) : marksOf f 0 = [] := rfl

theorem marksOf_succ (f : Nat → Option Nat) (T : Nat) :
    marksOf f (T + 1) = marksOf f T ++ ((f T).map (fun m => (T, m))).toList := by
  unfold marksOf
  rw [List.range_succ, List.filterMap_append]
  congr 1

theorem marksOf_add (f : Nat → Option Nat) (a b : Nat) :
    marksOf f (a + b) = marksOf f a ++ (marksOf (fun t => f (a + t)) b).map (fun x => (a + x.1, x.2)) := by
  induction b with
  | zero => simp [marksOf_zero]
  | succ b ih =>
    rw [← Nat.add_assoc, marksOf_succ, ih, marksOf_succ, List.map_append, List.append_assoc]
    congr 2
    cases f (a + b) <;> rfl

theorem addMark_marksOf (f : Nat → Option Nat) (T : Nat) :
    Properties.addMark ⟨marksOf f T⟩ T (f T) = ⟨marksOf f (T + 1)⟩ := by
  rw [marksOf_succ]
  cases f T <;> simp [Properties.addMark, Properties.add]

theorem mem_marksOf {f : Nat → Option Nat} {T : Nat} {x : Nat × Nat} :
    x ∈ marksOf f T ↔ x.1 < T ∧ f x.1 = some x.2 := by
  unfold marksOf
  rw [List.mem_filterMap]
  constructor
  · rintro ⟨t, ht, h⟩
    rw [Option.map_eq_some_iff] at h
    obtain ⟨m, hm, rfl⟩ := h
    exact ⟨List.mem_range.mp ht, hm⟩
  · rintro ⟨h1, h2⟩
    exact ⟨x.1, List.mem_range.mpr h1, by rw [h2]; rfl⟩

/-- the locations increase strictly -/
theorem marksOf_sorted (f : Nat → Option Nat) (T : Nat) : (marksOf f T).Pairwise (fun x y => x.1 < y.1) := by
  induction T with
  | zero => simp [marksOf_zero]
  | succ T ih =>
    rw [marksOf_succ, List.pairwise_append]
    refine ⟨ih, ?_, ?_⟩
    · cases f T <;> simp
    · intro x hx y hy
      have hx' := (mem_marksOf.mp hx).1
      cases h : f T with
      | none => simp [h] at hy
      | some m => simp [h] at hy; subst hy; exact hx'

theorem sort_marksOf (f : Nat → Option Nat) (T : Nat) : Properties.sort ⟨marksOf f T⟩ = ⟨marksOf f T⟩ := by
  unfold Properties.sort
  congr 1
  apply List.mergeSort_of_pairwise
  refine (marksOf_sorted f T).imp ?_
  intro x y h
  simp [Properties.pairLe, h]

/-- the entry just after the marks before `t` is the mark of `t`, if it has one -/
theorem marksOf_at {f : Nat → Option Nat} {T t : Nat} (ht : t < T) {P : Properties} (hP : P.props = marksOf f T) :
    (∀ m, f t = some m → P.is_marked (marksOf f t).length t = true ∧ P.marker (marksOf f t).length = m) ∧
    (f t = none → P.is_marked (marksOf f t).length t = false) := by
  obtain ⟨d, rfl⟩ : ∃ d, T = (t + 1) + d := ⟨T - (t + 1), by omega⟩
  have h : P.props = marksOf f t ++ (((f t).map (fun m => (t, m))).toList ++
      (marksOf (fun s => f (t + 1 + s)) d).map (fun x => (t + 1 + x.1, x.2))) := by
    rw [hP, marksOf_add, marksOf_succ, List.append_assoc]
  constructor
  · intro m hm
    have : P.props[(marksOf f t).length]? = some (t, m) := by
      rw [h, hm, List.getElem?_append_right (le_refl _)]
      simp
    simp [Properties.is_marked, Properties.marker, this]
  · intro hn
    have h' : P.props[(marksOf f t).length]? = ((marksOf (fun s => f (t + 1 + s)) d).map (fun x => (t + 1 + x.1, x.2)))[0]? := by
      rw [h, hn, List.getElem?_append_right (le_refl _)]
      simp
    unfold Properties.is_marked
    rw [h']
    cases hl : marksOf (fun s => f (t + 1 + s)) d with
    | nil => simp
    | cons x l => simp; omega

end Quad
