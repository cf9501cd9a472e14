import Verif.Props.Property
import Verif.Spec.PropertyText

/-!
# C34: blank lines and comments in the text format of the properties
-/

namespace Quad.Props
open Quad Quad.Properties Quad.Spec

private theorem getline_line {l s : List Char} (h : ∀ c ∈ l, c ≠ '\n') : getline (l ++ '\n' :: s) = some (l, s) := by
  have h1 : ∀ c ∈ l, decide (c ≠ '\n') = true := fun c hc => decide_eq_true (h c hc)
  unfold getline
  rw [if_neg (by simp), List.takeWhile_append_of_pos h1, List.dropWhile_append_of_pos h1]
  simp

private theorem skipped_line {Q : Properties} {l : List Char} (h : SkippedLine l) : (∀ c ∈ l, c ≠ '\n') ∧ readLine Q l = .ok Q := by
  obtain ⟨blanks, rest, rfl, hb, hr, hn⟩ := h
  have hbl : ∀ c ∈ blanks, isBlank c = true := fun c hc => by
    have := hb c hc
    simp only [List.mem_cons, List.not_mem_nil, or_false] at this
    rcases this with rfl | rfl | rfl | rfl <;> decide
  refine ⟨fun c hc e => ?_, ?_⟩
  · subst e
    rcases List.mem_append.1 hc with h | h
    · have := hb _ h
      revert this
      decide
    · exact hn h
  · unfold readLine
    rw [List.dropWhile_append_of_pos hbl]
    rcases hr with rfl | h | h
    · rfl
    all_goals
      cases rest with
      | nil => rfl
      | cons c t =>
        cases h
        rfl

private theorem lineOf_no_newline (it : Nat × Nat) : ∀ c ∈ lineOf it, c ≠ '\n' := by
  intro c hc
  unfold lineOf at hc
  rcases List.mem_append.mp hc with h | h
  · simpa using (isDigit_spec (decStr_digits _ c h)).2.2.2.1
  · rcases List.mem_append.mp h with h | h
    · simp at h; rcases h with rfl | rfl | rfl <;> decide
    · simpa using (isDigit_spec (decStr_digits _ c h)).2.2.2.1

private theorem readF_lines : ∀ (lines : List (List Char ⊕ Nat × Nat)) (fuel : Nat) (Q : Properties), lines.length < fuel →
    (∀ l, .inl l ∈ lines → SkippedLine l) → (∀ it, .inr it ∈ lines → it.1 < 2 ^ 64 ∧ it.2 < 2 ^ 32) →
    readF fuel Q (linesText lines) = .ok ⟨Q.props ++ lines.filterMap Sum.getRight?⟩ := by
  intro lines
  induction lines with
  | nil =>
    intro fuel Q hf _ _
    obtain ⟨f, rfl⟩ : ∃ f, fuel = f + 1 := ⟨fuel - 1, by simp at hf; omega⟩
    simp [readF, linesText, getline]
  | cons x t ih =>
    intro fuel Q hf hl hp
    obtain ⟨f, rfl⟩ : ∃ f, fuel = f + 1 := ⟨fuel - 1, by simp at hf; omega⟩
    have ih' := fun Q => ih f Q (by simp at hf; omega) (fun l h => hl l (by simp [h])) (fun it h => hp it (by simp [h]))
    cases x with
    | inl l =>
      obtain ⟨h1, h2⟩ := skipped_line (Q := Q) (hl l (by simp))
      have e : linesText (.inl l :: t) = l ++ '\n' :: linesText t := by simp [linesText]
      rw [e, readF, getline_line h1]
      simp only [h2, ok_bind]
      rw [ih' Q, List.filterMap_cons_none rfl]
    | inr it =>
      obtain ⟨h1, h2⟩ := hp it (by simp)
      have e : linesText (.inr it :: t) = lineOf it ++ '\n' :: linesText t := by
        simp only [linesText, List.flatMap_cons, write_cons]
        simp [write]
      rw [e, readF, getline_line (lineOf_no_newline it)]
      simp only
      rw [readLine_spec Q h1 h2, ok_bind, ih']
      simp

/-- C34: blank lines and comments, after any blanks, are skipped wherever they are between the properties written. -/
theorem C34_blank_and_comment_lines {lines : List (List Char ⊕ Nat × Nat)} (Q : Properties) (hl : ∀ l, .inl l ∈ lines → SkippedLine l)
    (hp : ∀ it, .inr it ∈ lines → it.1 < 2 ^ 64 ∧ it.2 < 2 ^ 32) :
    Q.read (linesText lines) = .ok ⟨Q.props ++ lines.filterMap Sum.getRight?⟩ := by
  refine readF_lines lines _ Q (Nat.lt_succ_of_le ?_) hl hp
  clear hl hp
  induction lines with
  | nil => simp
  | cons x t ih =>
    have : 1 + (linesText t).length ≤ (linesText (x :: t)).length := by
      cases x with
      | inl l => simp [linesText]; omega
      | inr it => simp [linesText, write]; omega
    simp only [List.length_cons]
    omega

example : Properties.empty.read "3 = 1\n\t # lost words\n\n70000 = 4294967295\n".toList = .ok ⟨[(3, 1), (70000, 4294967295)]⟩ := by
  have e : "3 = 1\n\t # lost words\n\n70000 = 4294967295\n".toList =
      linesText [.inr (3, 1), .inl "\t # lost words".toList, .inl [], .inr (70000, 4294967295)] := by
    decide +kernel
  rw [e]
  refine C34_blank_and_comment_lines _ (fun l h => ?_) (fun it h => ?_)
  · simp only [List.mem_cons, reduceCtorEq, Sum.inl.injEq, List.not_mem_nil, or_false, false_or] at h
    rcases h with rfl | rfl
    · exact ⟨['\t', ' '], "# lost words".toList, by decide, by decide, by decide, by decide⟩
    · exact ⟨[], [], rfl, by simp, .inl rfl, by simp⟩
  · simp only [List.mem_cons, reduceCtorEq, Sum.inr.injEq, List.not_mem_nil, or_false, false_or] at h
    rcases h with rfl | rfl <;> decide

end Quad.Props
