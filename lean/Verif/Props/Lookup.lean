import Verif.Model.Property
import Mathlib.Data.List.Perm.Basic
import Mathlib.Data.List.Sort

/-!
# C51: looking up locations and markers

The properties of a fragment are a list of pairs (location, marker), in the order
of the calls to `add`.
-/

namespace Quad.Props
open Quad Quad.Properties

/-- the object after the pairs have been added one by one -/
def added (items : List (Nat × Nat)) : Properties :=
  items.foldl (fun P it => P.add it.1 it.2) Properties.empty

theorem added_props (items : List (Nat × Nat)) : (added items).props = items := by
  have : ∀ (l : List (Nat × Nat)) (P : Properties),
      (l.foldl (fun P it => P.add it.1 it.2) P).props = P.props ++ l := by
    intro l
    induction l with
    | nil => intro P; simp
    | cons x l ih => intro P; rw [List.foldl_cons, ih]; simp [Properties.add]
  rw [added, this]
  rfl

/-- element `i` is the `i`-th pair added; beyond the end the location and the
marker are 0, and nothing is marked or in a range -/
theorem C51_lookup (items : List (Nat × Nat)) (i : Nat) :
    (∀ loc mark, items[i]? = some (loc, mark) →
      (added items).location i = loc ∧ (added items).marker i = mark ∧
      (∀ x, (added items).is_marked i x = true ↔ x = loc) ∧
      ∀ lo hi, (added items).in_range i lo hi = true ↔ lo ≤ loc ∧ loc < hi) ∧
    (items.length ≤ i → (added items).location i = 0 ∧ (added items).marker i = 0 ∧
      (∀ x, (added items).is_marked i x = false) ∧ ∀ lo hi, (added items).in_range i lo hi = false) := by
  constructor
  · intro loc mark h
    simp only [location, marker, is_marked, in_range, added_props, h, Option.getD_some, decide_eq_true_eq, ge_iff_le,
      implies_true, and_true, true_and]
    exact fun x => eq_comm
  · intro h
    have : items[i]? = none := List.getElem?_eq_none h
    simp [location, marker, is_marked, in_range, added_props, this]

theorem pairLe_total (a b : Nat × Nat) : (pairLe a b || pairLe b a) = true := by
  simp only [pairLe, Bool.or_eq_true, decide_eq_true_eq]
  omega

theorem pairLe_trans (a b c : Nat × Nat) (h : pairLe a b = true) (k : pairLe b c = true) : pairLe a c = true := by
  simp only [pairLe, decide_eq_true_eq] at *
  omega

/-- `sort` keeps the pairs and puts them in the order of their locations;
`clear` removes them -/
theorem C51_sort (P : Properties) : P.sort.props.Perm P.props ∧
    P.sort.props.Pairwise (fun x y => x.1 < y.1 ∨ (x.1 = y.1 ∧ x.2 ≤ y.2)) ∧ P.clear = added [] := by
  refine ⟨List.mergeSort_perm _ _, ?_, rfl⟩
  have := List.pairwise_mergeSort (le := pairLe) pairLe_trans pairLe_total P.props
  refine this.imp fun {a b} h => ?_
  simpa [pairLe] using h

/-- in a list with increasing locations, the pair with location `x` is behind
those with smaller locations -/
theorem scan_at : ∀ {l : List (Nat × Nat)}, l.Pairwise (fun x y => x.1 < y.1) → ∀ x m,
    (x, m) ∈ l → l[l.countP (fun it => decide (it.1 < x))]? = some (x, m)
  | [], _, x, m, h => nomatch h
  | y :: l, hs, x, m, h => by
      rw [List.pairwise_cons] at hs
      rcases List.mem_cons.1 h with q | q
      · subst q
        have : l.countP (fun it => decide (it.1 < x)) = 0 := by
          rw [List.countP_eq_zero]
          intro a ha
          have := hs.1 a ha
          simp only [decide_eq_true_eq]
          simp only at this
          omega
        rw [List.countP_cons, this]
        simp
      · have hy := hs.1 _ q
        rw [List.countP_cons_of_pos (by simpa using hy), List.getElem?_cons_succ]
        exact scan_at hs.2 x m q

/-- after `sort`, when no location was added twice: location `x` is marked at the
index that counts the smaller locations exactly if it was added, and with the
marker it was added with.  A scan of increasing locations that moves on to the
next index after each marked one therefore finds every mark. -/
theorem C51_scan {items : List (Nat × Nat)} (hd : (items.map Prod.fst).Nodup) (x : Nat) :
    ((added items).sort.is_marked (items.countP (fun it => decide (it.1 < x))) x = true ↔ ∃ m, (x, m) ∈ items) ∧
    ∀ m, (x, m) ∈ items → (added items).sort.marker (items.countP (fun it => decide (it.1 < x))) = m := by
  obtain ⟨hp, hs, _⟩ := C51_sort (added items)
  rw [added_props] at hp
  have nd : ((added items).sort.props.map Prod.fst).Nodup := (hp.map Prod.fst).nodup_iff.2 hd
  have hlt : (added items).sort.props.Pairwise (fun a b => a.1 < b.1) := by
    have n2 : (added items).sort.props.Pairwise (fun a b => a.1 ≠ b.1) := List.pairwise_map.1 nd
    refine (hs.and n2).imp fun {a b} h => ?_
    have := h.2
    omega
  have hc : items.countP (fun it => decide (it.1 < x)) =
      (added items).sort.props.countP (fun it => decide (it.1 < x)) := (hp.countP_eq _).symm
  have found : ∀ m, (x, m) ∈ items →
      (added items).sort.props[items.countP (fun it => decide (it.1 < x))]? = some (x, m) := by
    intro m h
    rw [hc]
    exact scan_at hlt x m (hp.mem_iff.2 h)
  refine ⟨⟨fun h => ?_, fun ⟨m, h⟩ => ?_⟩, fun m h => ?_⟩
  · unfold is_marked at h
    split at h
    · rename_i p e
      have hm := hp.mem_iff.1 (List.mem_of_getElem? e)
      exact ⟨p.2, by rwa [show (x, p.2) = p from by rw [← of_decide_eq_true h]]⟩
    · cases h
  · unfold is_marked
    rw [found m h]
    simp
  · unfold marker
    rw [found m h]
    rfl

example : ([(7, 1), (3, 1), (5, 1)].map Prod.fst).Nodup ∧
    (added [(7, 1), (3, 1), (5, 1)]).sort.props = [(3, 1), (5, 1), (7, 1)] :=
  ⟨by decide, by simp [added, Properties.sort, Properties.add, Properties.empty, List.mergeSort, pairLe,
    List.MergeSort.Internal.splitInTwo]⟩

example : ([(7, 1), (3, 1)] : List (Nat × Nat))[1]? = some (3, 1) := rfl

end Quad.Props
