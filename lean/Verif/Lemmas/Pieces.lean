import Verif.Spec.Pieces
import Verif.Lemmas.Distance

/-!
# Coding in pieces
-/

namespace Quad
open Quad.Spec

theorem wordAt_append_left {w t T : Nat} {s s' : List Nat} (hs : s.length = T * w) (ht : t < T) : wordAt w (s ++ s') t = wordAt w s t := by
  have h : (t + 1) * w ≤ T * w := Nat.mul_le_mul_right _ ht
  rw [Nat.succ_mul] at h
  unfold wordAt
  rw [List.drop_append_of_le_length (by omega), List.take_append_of_le_length (by rw [List.length_drop]; omega)]

theorem wordAt_append_right {w t T : Nat} {s s' : List Nat} (hs : s.length = T * w) : wordAt w (s ++ s') (T + t) = wordAt w s' t := by
  unfold wordAt
  rw [Nat.add_mul, ← hs, ← List.drop_drop, List.drop_left]

section
variable {w k n T T' : Nat} {st : Array Nat → Nat → Nat} {mk : Array Nat → Nat → Option Nat}
  {data data' frags frags' : Array (List Nat)} {fprops fprops' : Array Properties}

theorem joinStreams_gt {a a' : Array (List Nat)} {i : Nat} (hi : i < n) : gt (joinStreams n a a') i = gt a i ++ gt a' i := gt_ofFn hi

theorem CodeOf.join (hl : ∀ i, i < k → (gt data i).length = T * w) (C : CodeOf w k n st mk data T frags fprops)
    (C' : CodeOf w k n st mk data' T' frags' fprops') :
    CodeOf w k n st mk (joinStreams k data data') (T + T') (joinStreams n frags frags') (joinProps n T fprops fprops') := by
  have r1 : ∀ t, t < T → rowAt w k (gt (joinStreams k data data')) t = rowAt w k (gt data) t := by
    intro t ht
    refine gt_ext (by simp [rowAt]) (fun i hi => ?_)
    have hi' : i < k := by simpa [rowAt] using hi
    rw [rowAt_gt hi', rowAt_gt hi', joinStreams_gt hi', wordAt_append_left (hl i hi') ht]
  have r2 : ∀ t, rowAt w k (gt (joinStreams k data data')) (T + t) = rowAt w k (gt data') t := by
    intro t
    refine gt_ext (by simp [rowAt]) (fun i hi => ?_)
    have hi' : i < k := by simpa [rowAt] using hi
    rw [rowAt_gt hi', rowAt_gt hi', joinStreams_gt hi', wordAt_append_right (hl i hi')]
  refine ⟨by simp [joinStreams], by simp [joinProps], fun f hf => ?_, fun f hf => ?_⟩
  · rw [joinStreams_gt hf, C.frag f hf, C'.frag f hf, flat_add]
    congr 1
    · exact flat_congr (fun t ht => by rw [r1 t ht])
    · exact flat_congr (fun t _ => by rw [r2 t])
  · rw [show gt (joinProps n T fprops fprops') f = _ from gt_ofFn hf, C.prop f hf, C'.prop f hf, marksOf_add]
    simp only
    rw [marksOf_congr (f := fun t => mk (rowAt w k (gt (joinStreams k data data')) t) f) (g := fun t => mk (rowAt w k (gt data) t) f)
      (fun t ht => by rw [r1 t ht]), marksOf_congr (f := fun t => mk (rowAt w k (gt (joinStreams k data data')) (T + t)) f)
      (g := fun t => mk (rowAt w k (gt data') t) f) (fun t _ => by rw [r2 t])]

theorem CodeOf.unique (C : CodeOf w k n st mk data T frags fprops) (C' : CodeOf w k n st mk data T frags' fprops') :
    frags = frags' ∧ fprops = fprops' :=
  ⟨gt_ext (by rw [C.fsize, C'.fsize]) (fun f hf => by rw [C.fsize] at hf; rw [C.frag f hf, C'.frag f hf]),
    gt_ext (by rw [C.psize, C'.psize]) (fun f hf => by rw [C.psize] at hf; rw [C.prop f hf, C'.prop f hf])⟩

theorem joinStreams_bytes (h : ∀ i, i < k → ∀ x ∈ gt data i, x < 256) (h' : ∀ i, i < k → ∀ x ∈ gt data' i, x < 256) :
    ∀ i, i < k → ∀ x ∈ gt (joinStreams k data data') i, x < 256 := by
  intro i hi x hx
  rw [joinStreams_gt hi, List.mem_append] at hx
  rcases hx with hx | hx
  · exact h i hi x hx
  · exact h' i hi x hx

theorem joinStreams_length (h : ∀ i, i < k → (gt data i).length = T * w) (h' : ∀ i, i < k → (gt data' i).length = T' * w) :
    ∀ i, i < k → (gt (joinStreams k data data') i).length = (T + T') * w := by
  intro i hi
  rw [joinStreams_gt hi, List.length_append, h i hi, h' i hi, Nat.add_mul]

end

theorem Fec.HSpec.codesPieces {Γ : Type} {E : Fec Γ} {st : Array Nat → Nat → Nat} {mk : Array Nat → Nat → Option Nat} {A : Array Nat → Prop}
    (H : E.HSpec st mk A) {w k n : Nat} (hw : E.base.word_size = w) (hk : E.base.n_data = k) (hn : E.base.n_outputs = n) : CodesPieces E w k n := by
  intro data data' frags frags' fprops fprops' T T' mem mem' h h' e e' mem''
  have hk0 : 0 < k := by rw [← hk]; exact H.kpos
  have hw0 : 0 < w := by rw [← hw]; exact H.w.pos
  have hg : Gf2nData w k data T := ⟨h.size, h.bytes, fun i hi => (h.len i hi).ge, 0, hk0, by rw [h.len 0 hk0, Nat.succ_mul]; omega⟩
  have hd : Gf2nData w k (joinStreams k data data') (T + T') := by
    refine ⟨by simp [joinStreams], joinStreams_bytes h.bytes h'.bytes, fun i hi => ?_, ?_⟩
    · rw [joinStreams_gt hi, List.length_append, h.len i hi, Nat.add_mul]
      exact Nat.add_le_add_left (h'.full i hi) _
    · obtain ⟨i, hi, hlast⟩ := h'.last
      refine ⟨i, hi, ?_⟩
      rw [joinStreams_gt hi, List.length_append, h.len i hi, Nat.add_assoc, Nat.add_mul]
      exact Nat.add_lt_add_left hlast _
  obtain ⟨o, p, e2⟩ := H.codes hw hk hn mem'' hd
  obtain ⟨h1, h2⟩ := (H.codeOf hw hk hn hd e2).unique (CodeOf.join h.len (H.codeOf hw hk hn hg e) (H.codeOf hw hk hn h' e'))
  rw [e2, h1, h2]

end Quad
