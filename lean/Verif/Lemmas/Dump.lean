import Verif.Model.Dump
import Verif.Spec.Dump
import Verif.Lemmas.Misc
import Verif.Lemmas.Property

/-! # Lemmas on dumps -/

namespace Quad.Dump
open Spec

theorem num_eq (n : Nat) : num n = decimal n := by
  unfold num
  induction n using Nat.strong_induction_on with
  | _ n ih =>
    unfold Properties.decStr decimal
    by_cases h : n < 10
    · rw [dif_pos h, if_pos h]; simp [Properties.digitChar_toNat h]
    · rw [dif_neg h, if_neg h, List.map_append, ih _ (by omega)]
      simp [Properties.digitChar_toNat (show n % 10 < 10 by omega)]

theorem decimal_digits (n : Nat) : ∀ c ∈ decimal n, 48 ≤ c ∧ c ≤ 57 := by
  induction n using Nat.strong_induction_on with
  | _ n ih =>
    unfold decimal
    intro c hc
    split at hc
    · rw [List.mem_singleton] at hc; omega
    · rw [List.mem_append, List.mem_singleton] at hc
      rcases hc with hc | hc
      · exact ih _ (by omega) c hc
      · omega

theorem decimal_ne (n : Nat) : decimal n ≠ [] := by
  unfold decimal; split <;> simp

theorem decVal_decimal (n : Nat) : decVal (decimal n) = n := by
  induction n using Nat.strong_induction_on with
  | _ n ih =>
    unfold decimal
    split
    · simp [decVal]
    · rw [Misc.decVal_snoc, ih _ (by omega)]; omega

/-- digits without superfluous zeros are determined by their value -/
theorem decimal_unique (s : List Nat) (h : Decimal s) : s = decimal (decVal s) := by
  induction s using List.reverseRecOn with
  | nil => exact absurd rfl h.2.1
  | append_singleton t c ih =>
    obtain ⟨d, -, z⟩ := h
    have hc := d c (by simp)
    rw [Misc.decVal_snoc]
    rcases t with _ | ⟨a, t⟩
    · unfold decimal
      rw [if_pos (by simp [decVal]; omega)]
      simp [decVal]; omega
    · have ne : a ≠ 48 := by
        intro e
        have := congrArg List.length (z (by simp [e]))
        simp at this
      have i := ih ⟨fun x hx => d x (List.mem_append_left _ hx), by simp, fun q => absurd (by simpa using q) ne⟩
      have pos : decVal (a :: t) ≠ 0 := by
        intro e
        rw [e] at i
        unfold decimal at i
        simp at i
        exact ne i.1
      conv_rhs => unfold decimal
      rw [if_neg (by omega), show (10 * decVal (a :: t) + (c - 48)) / 10 = decVal (a :: t) by omega, ← i,
        show (10 * decVal (a :: t) + (c - 48)) % 10 = c - 48 by omega, show 48 + (c - 48) = c by omega]

theorem put_ok {b : Nat} (mem : Nat → Nat) {x : Nat} (hx : x < 2 ^ b) : put b mem x = .ok (elemText b x) := by
  unfold put elemText
  by_cases h8 : b = 8
  · rw [if_pos h8, if_pos h8]
  · rw [if_neg h8, if_neg h8]
    by_cases hb : b = 128
    · subst hb
      rw [if_pos rfl]
      obtain ⟨s, e, d, v, -⟩ := Misc.print_u128_spec mem hx
      rw [e, decimal_unique s d, v]
    · rw [if_neg hb, num_eq]

/-- a loop that appends -/
theorem forN_append {n : Nat} {s0 : List Nat} {f : Nat → List Nat → Res (List Nat)} (g : Nat → List Nat)
    (h : ∀ i s, i < n → f i s = .ok (s ++ g i)) : forN n s0 f = .ok (s0 ++ (List.range n).flatMap g) := by
  obtain ⟨r, e, q⟩ := forN_inv (n := n) (s := s0) (f := f) (fun k s => s = s0 ++ (List.range k).flatMap g) (by simp)
    (fun k s hk hs => ⟨_, h k s hk, by rw [hs, List.range_succ, List.flatMap_append]; simp⟩)
  rw [e, q]

theorem terms_eq (b : Nat) (f : Nat → Nat) (n : Nat) : ∀ i, termsText b i ((List.range' i n).map f)
    = (List.range' i n).flatMap (fun j => (if j = 0 then [] else chars " + ") ++ (elemText b (f j) ++ (chars " x^" ++ decimal j)))
      ++ chars "\n" := by
  induction n with
  | zero => intro i; rfl
  | succ n ih =>
    intro i
    rw [List.range'_succ, List.map_cons, termsText, ih, List.flatMap_cons]
    simp only [List.append_assoc]

theorem join_eq (b : Nat) (f : Nat → Nat) (m : Nat) : ∀ j, joinText b ((List.range' j (m + 1)).map f)
    = (List.range' j m).flatMap (fun j => elemText b (f j) ++ chars "-") ++ elemText b (f (j + m)) := by
  induction m with
  | zero => intro j; rfl
  | succ m ih =>
    intro j
    have := ih (j + 1)
    rw [List.range'_succ, List.map_cons] at this
    rw [List.range'_succ, List.range'_succ, List.map_cons, List.map_cons, joinText, this, List.range'_succ, List.flatMap_cons]
    simp only [List.append_assoc, Nat.add_comm, Nat.add_left_comm]

theorem bufs_eq (b : Nat) (r : Nat → List Nat) (n : Nat) : ∀ i, bufsTextFrom b i ((List.range' i n).map r)
    = (List.range' i n).flatMap (fun j => chars "\n\t" ++ (decimal j ++ (chars ": " ++ joinText b (r j)))) ++ chars "\n)\n" := by
  induction n with
  | zero => intro i; rfl
  | succ n ih =>
    intro i
    rw [List.range'_succ, List.map_cons, bufsTextFrom, ih, List.flatMap_cons]
    simp only [List.append_assoc]

/-! ## Dumps determine what is dumped -/

/-- the text goes on with something that is not a digit -/
def NoDigit : List Nat → Prop
  | [] => True
  | c :: _ => c < 48 ∨ 57 < c

theorem digits_split {s s' r r' : List Nat} (h : ∀ c ∈ s, 48 ≤ c ∧ c ≤ 57) (h' : ∀ c ∈ s', 48 ≤ c ∧ c ≤ 57) (n : NoDigit r)
    (n' : NoDigit r') (e : s ++ r = s' ++ r') : s = s' ∧ r = r' := by
  induction s generalizing s' with
  | nil =>
    cases s' with
    | nil => exact ⟨rfl, e⟩
    | cons a t =>
      simp only [List.nil_append, List.cons_append] at e
      rw [e] at n
      have := h' a (by simp)
      unfold NoDigit at n
      omega
  | cons a t ih =>
    cases s' with
    | nil =>
      simp only [List.nil_append, List.cons_append] at e
      rw [← e] at n'
      have := h a (by simp)
      unfold NoDigit at n'
      omega
    | cons c u =>
      simp only [List.cons_append, List.cons.injEq] at e
      obtain ⟨i, j⟩ := ih (fun x hx => h x (by simp [hx])) (fun x hx => h' x (by simp [hx])) e.2
      exact ⟨by rw [e.1, i], j⟩

theorem decimal_split {x y : Nat} {r r' : List Nat} (n : NoDigit r) (n' : NoDigit r')
    (e : decimal x ++ r = decimal y ++ r') : x = y ∧ r = r' := by
  obtain ⟨i, j⟩ := digits_split (decimal_digits x) (decimal_digits y) n n' e
  exact ⟨by rw [← decVal_decimal x, i, decVal_decimal], j⟩

theorem elem_split {b x y : Nat} {r r' : List Nat} (n : NoDigit r) (n' : NoDigit r')
    (e : elemText b x ++ r = elemText b y ++ r') : x = y ∧ r = r' := by
  unfold elemText at e
  by_cases h : b = 8
  · simpa [if_pos h] using e
  · rw [if_neg h, if_neg h] at e
    exact decimal_split n n' e

theorem elem_ne (b x : Nat) : elemText b x ≠ [] := by
  unfold elemText
  split
  · simp
  · exact decimal_ne x

/-- an element is not taken for a character that is no digit, unless it is a byte -/
theorem elem_head {b x c : Nat} {r r' : List Nat} (hc : c < 48 ∨ 57 < c) (e : elemText b x ++ r = c :: r') :
    x = c ∧ r = r' := by
  unfold elemText at e
  by_cases h : b = 8
  · simpa [if_pos h] using e
  · rw [if_neg h] at e
    cases hd : decimal x with
    | nil => exact absurd hd (decimal_ne x)
    | cons a t =>
      rw [hd] at e
      have := decimal_digits x a (by rw [hd]; simp)
      have := (List.cons.inj e).1
      omega

theorem vec_tail_inj {b : Nat} : ∀ {xs ys : List Nat},
    (xs.map (fun x => elemText b x ++ [32])).flatten ++ [41, 10] = (ys.map (fun x => elemText b x ++ [32])).flatten ++ [41, 10] →
    xs = ys
  | [], [], _ => rfl
  | [], y :: ys, e => by
    simp only [List.map_nil, List.flatten_nil, List.nil_append, List.map_cons, List.flatten_cons, List.append_assoc,
      List.cons_append] at e
    have := (elem_head (by omega) e.symm).2
    simp at this
  | x :: xs, [], e => by
    simp only [List.map_nil, List.flatten_nil, List.nil_append, List.map_cons, List.flatten_cons, List.append_assoc,
      List.cons_append] at e
    have := (elem_head (by omega) e).2
    simp at this
  | x :: xs, y :: ys, e => by
    simp only [List.map_cons, List.flatten_cons, List.append_assoc, List.cons_append, List.nil_append] at e
    obtain ⟨i, j⟩ := elem_split (by unfold NoDigit; omega) (by unfold NoDigit; omega) e
    rw [i, vec_tail_inj (List.cons.inj j).2]

theorem vecText_inj {b : Nat} {xs ys : List Nat} (e : vecText b xs = vecText b ys) : xs = ys :=
  vec_tail_inj (List.append_cancel_left e)

/-- terms go on with a blank or end -/
theorem terms_form (b i : Nat) (hi : i ≠ 0) : ∀ xs, (xs = [] ∧ termsText b i xs = [10]) ∨
    ∃ x t, xs = x :: t ∧ termsText b i xs = 32 :: 43 :: 32 :: (elemText b x ++ 32 :: 120 :: 94 :: (decimal i ++ termsText b (i + 1) t))
  | [] => .inl ⟨rfl, rfl⟩
  | x :: t => .inr ⟨x, t, rfl, by rw [termsText, if_neg hi]; rfl⟩

theorem terms_noDigit (b i : Nat) (hi : i ≠ 0) (xs : List Nat) : NoDigit (termsText b i xs) := by
  rcases terms_form b i hi xs with ⟨-, e⟩ | ⟨x, t, -, e⟩ <;> rw [e] <;> unfold NoDigit <;> omega

theorem term_rest {b x y i : Nat} {xs ys : List Nat}
    (e : elemText b x ++ 32 :: 120 :: 94 :: (decimal i ++ termsText b (i + 1) xs)
      = elemText b y ++ 32 :: 120 :: 94 :: (decimal i ++ termsText b (i + 1) ys)) :
    x = y ∧ termsText b (i + 1) xs = termsText b (i + 1) ys := by
  obtain ⟨p, q⟩ := elem_split (by unfold NoDigit; omega) (by unfold NoDigit; omega) e
  simp only [List.cons.injEq, true_and] at q
  exact ⟨p, List.append_cancel_left q⟩

theorem terms_inj {b : Nat} : ∀ {xs ys : List Nat} {i : Nat}, i ≠ 0 → termsText b i xs = termsText b i ys → xs = ys := by
  intro xs
  induction xs with
  | nil =>
    intro ys i hi e
    rcases terms_form b i hi ys with ⟨h, -⟩ | ⟨y, t, -, e'⟩
    · exact h.symm
    · rw [e'] at e; exact absurd e (by simp [termsText, chars])
  | cons x xs ih =>
    intro ys i hi e
    rcases terms_form b i hi (x :: xs) with ⟨h, -⟩ | ⟨x', t', hx, ex⟩
    · cases h
    · cases hx
      rcases terms_form b i hi ys with ⟨-, e'⟩ | ⟨y, t, hy, e'⟩
      · rw [ex, e'] at e; simp at e
      · rw [ex, e'] at e
        simp only [List.cons.injEq, true_and] at e
        obtain ⟨p, q⟩ := term_rest e
        rw [hy, p, ih (by omega) q]

theorem polyText_inj {b : Nat} {xs ys : List Nat} (e : polyText b xs = polyText b ys) : xs = ys := by
  unfold polyText at e
  have form : ∀ x t, termsText b 0 (x :: t) = elemText b x ++ 32 :: 120 :: 94 :: (decimal 0 ++ termsText b 1 t) := by
    intro x t; rfl
  cases xs with
  | nil =>
    cases ys with
    | nil => rfl
    | cons y ys =>
      rw [form] at e
      have := (elem_head (c := 10) (by omega) e.symm).2
      simp at this
  | cons x xs =>
    cases ys with
    | nil =>
      rw [form] at e
      have := (elem_head (c := 10) (by omega) e).2
      simp at this
    | cons y ys =>
      rw [form, form] at e
      obtain ⟨p, q⟩ := term_rest e
      rw [p, terms_inj (by omega) q]

/-- the rest of a row starts with a blank or ends the line -/
theorem row_form (b : Nat) : ∀ xs, (xs = [] ∧ rowText b xs = [10]) ∨
    ∃ x t, xs = x :: t ∧ rowText b xs = 32 :: (elemText b x ++ rowText b t)
  | [] => .inl ⟨rfl, rfl⟩
  | x :: t => .inr ⟨x, t, rfl, by simp [rowText, chars]⟩

theorem row_noDigit (b : Nat) (xs r : List Nat) : NoDigit (rowText b xs ++ r) := by
  rcases row_form b xs with ⟨-, e⟩ | ⟨x, t, -, e⟩ <;> rw [e] <;> simp [NoDigit]

theorem row_split {b : Nat} : ∀ {xs ys r r' : List Nat}, rowText b xs ++ r = rowText b ys ++ r' → xs = ys ∧ r = r' := by
  intro xs
  induction xs with
  | nil =>
    intro ys r r' e
    rcases row_form b ys with ⟨h, e'⟩ | ⟨y, t, -, e'⟩
    · rw [e'] at e; exact ⟨h.symm, (List.cons.inj e).2⟩
    · rw [e'] at e; exact absurd (List.cons.inj e).1 (by decide)
  | cons x xs ih =>
    intro ys r r' e
    rcases row_form b (x :: xs) with ⟨h, -⟩ | ⟨x', t', hx, ex⟩
    · cases h
    · cases hx
      rcases row_form b ys with ⟨-, e'⟩ | ⟨y, t, hy, e'⟩
      · rw [ex, e'] at e; exact absurd (List.cons.inj e).1 (by decide)
      · rw [ex, e'] at e
        simp only [List.cons_append, List.cons.injEq, true_and, List.append_assoc] at e
        obtain ⟨p, q⟩ := elem_split (row_noDigit b _ _) (row_noDigit b _ _) e
        obtain ⟨p', q'⟩ := ih q
        exact ⟨by rw [hy, p, p'], q'⟩

theorem row_ne (b : Nat) (xs : List Nat) : rowText b xs ≠ [] := by
  rcases row_form b xs with ⟨-, e⟩ | ⟨x, t, -, e⟩ <;> rw [e] <;> simp

theorem rows_inj {b : Nat} : ∀ {xs ys : List (List Nat)}, (xs.map (rowText b)).flatten = (ys.map (rowText b)).flatten → xs = ys
  | [], [], _ => rfl
  | [], y :: ys, e => by
    simp only [List.map_nil, List.flatten_nil, List.map_cons, List.flatten_cons] at e
    exact absurd (List.append_eq_nil_iff.1 e.symm).1 (row_ne b y)
  | x :: xs, [], e => by
    simp only [List.map_nil, List.flatten_nil, List.map_cons, List.flatten_cons] at e
    exact absurd (List.append_eq_nil_iff.1 e).1 (row_ne b x)
  | x :: xs, y :: ys, e => by
    simp only [List.map_cons, List.flatten_cons] at e
    obtain ⟨i, j⟩ := row_split e
    rw [i, rows_inj j]

theorem matText_inj {b : Nat} {xs ys : List (List Nat)} (e : matText b xs = matText b ys) : xs = ys :=
  rows_inj (List.append_cancel_left e)

/-- a line of a set of buffers -/
theorem join_split {b : Nat} : ∀ {xs ys r r' : List Nat}, xs ≠ [] → ys ≠ [] → joinText b xs ++ 10 :: r = joinText b ys ++ 10 :: r' →
    xs = ys ∧ r = r' := by
  intro xs
  induction xs with
  | nil => intro ys r r' h; exact absurd rfl h
  | cons x xs ih =>
    intro ys r r' _ hy e
    cases ys with
    | nil => exact absurd rfl hy
    | cons y ys =>
      have form : ∀ x t r, joinText b (x :: t) ++ 10 :: r
          = elemText b x ++ (match t with | [] => 10 :: r | a :: u => 45 :: (joinText b (a :: u) ++ 10 :: r)) := by
        intro x t r
        cases t with
        | nil => rfl
        | cons a u => simp [joinText, chars]
      rw [form, form] at e
      cases xs with
      | nil =>
        cases ys with
        | nil =>
          obtain ⟨p, q⟩ := elem_split (by simp [NoDigit]) (by simp [NoDigit]) e
          exact ⟨by rw [p], (List.cons.inj q).2⟩
        | cons a u =>
          obtain ⟨-, q⟩ := elem_split (by simp [NoDigit]) (by simp [NoDigit]) e
          exact absurd (List.cons.inj q).1 (by decide)
      | cons a u =>
        cases ys with
        | nil =>
          obtain ⟨-, q⟩ := elem_split (by simp [NoDigit]) (by simp [NoDigit]) e
          exact absurd (List.cons.inj q).1 (by decide)
        | cons a' u' =>
          obtain ⟨p, q⟩ := elem_split (by simp [NoDigit]) (by simp [NoDigit]) e
          obtain ⟨p', q'⟩ := ih (by simp) (by simp) (List.cons.inj q).2
          exact ⟨by rw [p, p'], q'⟩

theorem bufs_form (b i : Nat) : ∀ rows, (rows = [] ∧ bufsTextFrom b i rows = 10 :: [41, 10]) ∨
    ∃ r t, rows = r :: t ∧ bufsTextFrom b i rows
      = 10 :: 9 :: (decimal i ++ 58 :: 32 :: (joinText b r ++ bufsTextFrom b (i + 1) t))
  | [] => .inl ⟨rfl, rfl⟩
  | r :: t => .inr ⟨r, t, rfl, rfl⟩

theorem bufs_ten (b i : Nat) (rows : List (List Nat)) : ∃ q, bufsTextFrom b i rows = 10 :: q := by
  rcases bufs_form b i rows with ⟨-, e⟩ | ⟨r, t, -, e⟩ <;> exact ⟨_, e⟩

theorem bufsFrom_inj {b : Nat} : ∀ {xs ys : List (List Nat)} {i : Nat}, (∀ r ∈ xs, r ≠ []) → (∀ r ∈ ys, r ≠ []) →
    bufsTextFrom b i xs = bufsTextFrom b i ys → xs = ys := by
  intro xs
  induction xs with
  | nil =>
    intro ys i _ _ e
    rcases bufs_form b i ys with ⟨h, -⟩ | ⟨r, t, -, e'⟩
    · exact h.symm
    · rw [e'] at e; simp [bufsTextFrom, chars] at e
  | cons x xs ih =>
    intro ys i hx hy e
    rcases bufs_form b i (x :: xs) with ⟨h, -⟩ | ⟨r, t, h, ex⟩
    · cases h
    · cases h
      rcases bufs_form b i ys with ⟨-, e'⟩ | ⟨r, t, h', e'⟩
      · rw [ex, e'] at e; simp at e
      · rw [ex, e'] at e
        subst h'
        simp only [List.cons.injEq, true_and] at e
        have e := List.append_cancel_left e
        simp only [List.cons.injEq, true_and] at e
        obtain ⟨q, eq⟩ := bufs_ten b (i + 1) xs
        obtain ⟨q', eq'⟩ := bufs_ten b (i + 1) t
        have e2 := e
        rw [eq, eq'] at e2
        obtain ⟨p, w⟩ := join_split (hx _ (by simp)) (hy _ (by simp)) e2
        have k := ih (ys := t) (i := i + 1) (fun r hr => hx r (List.mem_cons_of_mem _ hr))
          (fun r hr => hy r (List.mem_cons_of_mem _ hr)) (by rw [eq, eq', w])
        rw [p, k]

end Quad.Dump
