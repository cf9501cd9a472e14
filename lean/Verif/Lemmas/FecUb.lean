import Verif.Lemmas.FecFntStream

/-!
Systematic FNT codes read properties out of range when streams are decoded
word by word; availability counts.
-/

namespace Quad

theorem present_eq_countP (mask : Array Bool) : (present mask mask.size).length = mask.toList.countP id := by
  have h : mask.toList = (List.range mask.size).map (gt mask) := by
    apply List.ext_getElem (by simp)
    intro i h1 h2
    simp only [List.getElem_map, List.getElem_range, Array.getElem_toList]
    rw [gt_eq (by simpa using h1)]
  rw [h, List.countP_map, List.countP_eq_length_filter]
  rfl

/-- number of streams that are there -/
def countAvail (a : Array (Option (List Nat))) : Nat := a.toList.countP Option.isSome

theorem present_eq_avail (a : Array (Option (List Nat))) {n : Nat} (h : a.size = n) :
    (present (a.map Option.isSome) n).length = countAvail a := by
  have := present_eq_countP (a.map Option.isSome)
  rw [Array.size_map, h] at this
  rw [this, Array.toList_map, List.countP_map]
  rfl

/-- a loop whose steps return or are undefined, and one of which is undefined -/
theorem forN_ub {σ : Type _} {n t : Nat} {s : σ} {f : Nat → σ → Res σ} (I : σ → Prop) (h0 : I s)
    (hs : ∀ i s, i < n → I s → f i s = .error .ub ∨ ∃ s', f i s = .ok s' ∧ I s') (ht : t < n)
    (hub : ∀ s, I s → f t s = .error .ub) : forN n s f = .error .ub := by
  have key : ∀ m, m ≤ n → forN m s f = .error .ub ∨ (m ≤ t ∧ ∃ s', forN m s f = .ok s' ∧ I s') := by
    intro m
    induction m with
    | zero => intro _; exact .inr ⟨by omega, s, rfl, h0⟩
    | succ m ih =>
      intro hm
      rcases ih (by omega) with h | ⟨hmt, s', e, hI⟩
      · left; simp [forN, h]
      · rcases hs m s' (by omega) hI with h | ⟨s2, e2, hI2⟩
        · left; simp [forN, e, h]
        · by_cases hmt' : m = t
          · subst hmt'; rw [hub s' hI] at e2; cases e2
          · right
            exact ⟨by omega, s2, by simp [forN, e, e2], hI2⟩
  rcases key n le_rfl with h | ⟨h, _⟩
  · exact h
  · omega

theorem FecBase.decode_prepare_ub {B : FecBase} {C : Ctx} {props : Array Properties} {off : Nat} {words : Array Nat}
    {i : Nat} (hi : i < B.n_data) (hids : B.n_data ≤ C.fragments_ids.size) (hpr : props.size ≤ gt C.fragments_ids i) :
    B.decode_prepare C props off words = .error .ub := by
  refine forN_ub (I := fun (s : Ctx × Array Nat) => s.1.fragments_ids = C.fragments_ids) rfl ?_ hi ?_
  · rintro t ⟨c, ws⟩ ht hI
    simp only at hI ⊢
    rw [hI, rd_gt (a := C.fragments_ids) (by omega), ok_bind]
    unfold rd
    cases props[gt C.fragments_ids t]? with
    | none => left; rfl
    | some P =>
      simp only [ok_bind]
      cases c.props_indices[gt C.fragments_ids t]? with
      | none => left; rfl
      | some idx =>
        simp only [ok_bind]
        by_cases h1 : P.is_marked idx off = true
        · rw [if_pos h1]
          by_cases h2 : P.marker idx = OOR_MARK
          · rw [if_pos h2]
            unfold wr
            by_cases h3 : t < ws.size
            · rw [if_pos h3, ok_bind]
              by_cases h4 : gt C.fragments_ids t < c.props_indices.size
              · rw [if_pos h4]; right; exact ⟨_, rfl, rfl⟩
              · rw [if_neg h4]; left; rfl
            · rw [if_neg h3]; left; rfl
          · rw [if_neg h2]
            unfold wr
            by_cases h4 : gt C.fragments_ids t < c.props_indices.size
            · rw [if_pos h4]; right; exact ⟨_, rfl, rfl⟩
            · rw [if_neg h4]; left; rfl
        · rw [if_neg h1]; right; exact ⟨_, rfl, hI⟩
  · rintro ⟨c, ws⟩ hI
    simp only at hI ⊢
    rw [hI, rd_gt (a := C.fragments_ids) (by omega), ok_bind]
    unfold rd
    rw [Array.getElem?_eq_none hpr]
    rfl

end Quad
