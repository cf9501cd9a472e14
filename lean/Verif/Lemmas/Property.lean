import Verif.Model.Property
import Mathlib.Tactic.Ring
import Mathlib.Tactic.Linarith
import Mathlib.Tactic.IntervalCases
import Mathlib.Data.List.Basic

namespace Quad

theorem bswap32_lt (x : Nat) : bswap32 x < 2 ^ 32 := by unfold bswap32; omega

theorem bswap32_bytes {a b c d : Nat} (ha : a < 256) (hb : b < 256) (hc : c < 256) (hd : d < 256) :
    bswap32 (a + 256 * b + 65536 * c + 16777216 * d) = d + 256 * c + 65536 * b + 16777216 * a := by
  unfold bswap32; omega

theorem bswap32_bswap32 {x : Nat} (h : x < 2 ^ 32) : bswap32 (bswap32 x) = x := by
  obtain ⟨a, b, c, d, ha, hb, hc, hd, rfl⟩ : ∃ a b c d, a < 256 ∧ b < 256 ∧ c < 256 ∧ d < 256 ∧
      x = a + 256 * b + 65536 * c + 16777216 * d :=
    ⟨x % 256, x / 256 % 256, x / 65536 % 256, x / 16777216, by omega, by omega, by omega, by omega, by omega⟩
  rw [bswap32_bytes ha hb hc hd, bswap32_bytes hd hc hb ha]

/-- a loop that fails at turn `j` fails -/
theorem forN_error_at {σ : Type _} {n : Nat} {s : σ} {f : Nat → σ → Res σ} {j : Nat} {e : Err} (hj : j < n)
    (hs : ∀ k s, k < j → ∃ s', f k s = .ok s') (hf : ∀ s, f j s = .error e) : forN n s f = .error e := by
  induction n with
  | zero => omega
  | succ n ih =>
    rw [forN]
    by_cases h : j < n
    · rw [ih h]; rfl
    · obtain rfl : j = n := by omega
      obtain ⟨s', e1, _⟩ := forN_inv (n := j) (s := s) (f := f) (fun _ _ => True) trivial (fun k s hk _ => by
        obtain ⟨s', h⟩ := hs k s hk
        exact ⟨s', h, trivial⟩)
      rw [e1, ok_bind, hf]

/-- a loop whose first turn fails fails -/
theorem forN_first_error {σ : Type _} {n : Nat} {s : σ} {f : Nat → σ → Res σ} {e : Err} (hn : 0 < n)
    (h : f 0 s = .error e) : forN n s f = .error e := by
  induction n with
  | zero => omega
  | succ n ih =>
    cases n with
    | zero => simp [forN, h]
    | succ n => rw [forN, ih (by omega), error_bind]

namespace Properties

theorem writeLocs_spec : ∀ (l : List (Nat × Nat)) (i : Nat) (d : Array Nat), i + l.length ≤ d.size →
    ∃ d', writeLocs l i d = .ok (i + l.length, d') ∧ d'.size = d.size ∧
      (∀ k, k < i → gt d' k = gt d k) ∧
      (∀ k, k < l.length → gt d' (i + k) = bswap32 ((l[k]?.getD (0, 0)).1 % 2 ^ 32)) ∧
      (∀ k, i + l.length ≤ k → gt d' k = gt d k) := by
  intro l
  induction l with
  | nil => intro i d _; exact ⟨d, rfl, rfl, fun _ _ => rfl, fun k hk => absurd hk (by simp), fun _ _ => rfl⟩
  | cons a t ih =>
    intro i d h
    simp only [List.length_cons] at h
    rw [writeLocs, wr_ok (by omega), ok_bind]
    obtain ⟨d', e, s1, s2, s3, s4⟩ := ih (i + 1) (d.setIfInBounds i (bswap32 (a.1 % 2 ^ 32))) (by simp; omega)
    refine ⟨d', by rw [e]; simp only [List.length_cons]; congr 2; omega, by simpa using s1, ?_, ?_, ?_⟩
    · intro k hk
      rw [s2 k (by omega), gt_set (by omega), if_neg (by omega)]
    · intro k hk
      cases k with
      | zero => rw [Nat.add_zero, s2 i (by omega), gt_set (by omega), if_pos rfl]; simp
      | succ k =>
        have := s3 k (by simpa using hk)
        rw [show i + (k + 1) = i + 1 + k by omega, this]; simp
    · intro k hk
      simp only [List.length_cons] at hk
      rw [s4 k (by omega), gt_set (by omega), if_neg (by omega)]

theorem fill_spec {d : Array Nat} {i n : Nat} (h : n ≤ d.size) (x : Nat) :
    ∃ d', forStep i n 1 d (fun k d => wr d k x) = .ok d' ∧ d'.size = d.size ∧
      ∀ k, gt d' k = if i ≤ k ∧ k < n then x else gt d k := by
  obtain ⟨d', e, s1, s2⟩ := forStep_inv (a := i) (b := n) (st := 1) (s := d) (f := fun k d => wr d k x)
    (I := fun t (c : Array Nat) => c.size = d.size ∧
      ∀ k, gt c k = if i ≤ k ∧ k < i + t then x else gt d k) (by omega)
    ⟨rfl, fun k => by rw [if_neg (by omega)]⟩
    (by
      rintro t c ht ⟨h1, h2⟩
      have e1 : i + t * 1 = i + t := by ring
      rw [e1] at ht ⊢
      refine ⟨_, wr_ok (by omega), by simp [h1], ?_⟩
      intro k
      rw [gt_set (by omega), h2]
      by_cases hk : k = i + t
      · rw [if_pos hk, if_pos (by omega)]
      · rw [if_neg hk]
        by_cases hc : i ≤ k ∧ k < i + t
        · rw [if_pos hc, if_pos (by omega)]
        · rw [if_neg hc, if_neg (by omega)])
  refine ⟨d', e, s1, fun k => ?_⟩
  rw [s2]
  have : stride i n 1 = n - i := by unfold stride; simp
  rw [this]
  by_cases hc : i ≤ k ∧ k < n
  · rw [if_pos (by omega), if_pos hc]
  · rw [if_neg (by omega), if_neg hc]

/-- what a successful serialisation leaves in the area -/
theorem serialize_spec {P : Properties} {d : Array Nat} (h : 2 + P.props.length < d.size) (h32 : d.size < 2 ^ 32) :
    ∃ d', P.fnt_serialize d = .ok (0, d') ∧ d'.size = d.size ∧ gt d' 0 = bswap32 FNT1 ∧
      gt d' 1 = bswap32 P.props.length ∧
      (∀ k, k < P.props.length → gt d' (2 + k) = bswap32 ((P.props[k]?.getD (0, 0)).1 % 2 ^ 32)) ∧
      (∀ k, 2 + P.props.length ≤ k → k + 1 < d.size → gt d' k = 0) ∧
      gt d' (d.size - 1) = gt d (d.size - 1) := by
  unfold fnt_serialize
  simp only
  rw [if_neg (by omega), wr_ok (by omega), ok_bind]
  obtain ⟨d1, e1, s1, p1, p2, p3⟩ := writeLocs_spec P.props 2 (d.setIfInBounds 0 (bswap32 FNT1)) (by simp; omega)
  rw [size_set] at s1
  rw [e1, ok_bind]
  simp only
  rw [wr_ok (by omega), ok_bind, if_neg (by omega)]
  obtain ⟨d2, e2, s2, q⟩ := fill_spec (d := d1.setIfInBounds 1 (bswap32 ((2 + P.props.length - 2) % 2 ^ 32)))
    (i := 2 + P.props.length) (n := d.size - 1) (by simp; omega) (bswap32 0)
  rw [size_set] at s2
  rw [e2, ok_bind]
  refine ⟨d2, rfl, by omega, ?_, ?_, ?_, ?_, ?_⟩
  · rw [q, if_neg (by omega), gt_set (by omega), if_neg (by omega), p1 0 (by omega), gt_set (by omega), if_pos rfl]
  · rw [q, if_neg (by omega), gt_set (by omega), if_pos rfl]
    congr 1; omega
  · intro k hk
    rw [q, if_neg (by omega), gt_set (by omega), if_neg (by omega), p2 k hk]
  · intro k h1 h2
    rw [q, if_pos (by omega)]; rfl
  · rw [q, if_neg (by omega), gt_set (by omega), if_neg (by omega), p3 _ (by omega), gt_set (by omega),
      if_neg (by omega)]

/-- the reading loop -/
theorem readLocs_spec {d : Array Nat} {n : Nat} (hn : n + 2 ≤ d.size) (h32 : d.size < 2 ^ 32) (P : Properties) :
    forN n P (fun i P => do
      let w ← rd d ((i + 2) % 2 ^ 32)
      pure (P.add (bswap32 w) OOR_MARK))
      = .ok ⟨P.props ++ (List.range n).map (fun k => (bswap32 (gt d (2 + k)), OOR_MARK))⟩ := by
  induction n with
  | zero => simp [forN]
  | succ n ih =>
    rw [forN, ih (by omega), ok_bind, Nat.mod_eq_of_lt (by omega), rd_gt (by omega), ok_bind]
    rw [List.range_succ, List.map_append, ← List.append_assoc]
    simp only [add, List.map_cons, List.map_nil]
    rw [show n + 2 = 2 + n by omega]; rfl

/-! ### text -/

theorem digitChar_toNat {d : Nat} (h : d < 10) : (digitChar d).toNat = 48 + d := by
  interval_cases d <;> rfl

theorem isDigit_digitChar {d : Nat} (h : d < 10) : isDigit (digitChar d) = true := by
  interval_cases d <;> rfl

theorem isDigit_spec {c : Char} (h : isDigit c = true) :
    isBlank c = false ∧ isSpace c = false ∧ c ≠ '=' ∧ c ≠ '\n' ∧ c ≠ '#' ∧ c ≠ ';' ∧ c ≠ '+' ∧ c ≠ '-' := by
  simp only [isDigit, Bool.and_eq_true, decide_eq_true_eq] at h
  have ne : ∀ x : Char, (x.toNat < 48 ∨ 57 < x.toNat) → c ≠ x := by
    rintro x hx rfl; omega
  have h1 : c ≠ ' ' := ne _ (by decide)
  have h2 : c ≠ '\t' := ne _ (by decide)
  have h3 : c ≠ '\n' := ne _ (by decide)
  have h4 : c ≠ '\r' := ne _ (by decide)
  have hb : isBlank c = false := by
    simp only [isBlank, h1, h2, decide_false, Bool.false_or, Bool.or_false, Bool.or_eq_false_iff,
      decide_eq_false_iff_not]
    exact ⟨by omega, by omega⟩
  refine ⟨hb, by simp [isSpace, hb, h3, h4], ne _ (by decide), h3, ne _ (by decide), ne _ (by decide),
    ne _ (by decide), ne _ (by decide)⟩

theorem decStr_digits (n : Nat) : ∀ c ∈ decStr n, isDigit c = true := by
  induction n using Nat.strong_induction_on with
  | _ n ih =>
    unfold decStr
    split
    · rename_i h; simp only [List.mem_singleton]; rintro c rfl; exact isDigit_digitChar h
    · rename_i h
      intro c hc
      rcases List.mem_append.mp hc with hc | hc
      · exact ih (n / 10) (by omega) c hc
      · simp only [List.mem_singleton] at hc; subst hc; exact isDigit_digitChar (by omega)

theorem decStr_ne_nil (n : Nat) : decStr n ≠ [] := by
  unfold decStr; split <;> simp

theorem decVal_decStr (n : Nat) : decVal (decStr n) = n := by
  induction n using Nat.strong_induction_on with
  | _ n ih =>
    unfold decStr
    split
    · rename_i h; simp [decVal, digitChar_toNat h]
    · rename_i h
      have := ih (n / 10) (by omega)
      simp only [decVal] at this ⊢
      rw [List.foldl_append, this]
      simp only [List.foldl_cons, List.foldl_nil, digitChar_toNat (show n % 10 < 10 by omega)]
      omega

theorem dropWhile_ne {f : Char → Bool} {l : List Char} (h : ∀ c ∈ l, f c = false) : l.dropWhile f = l := by
  cases l with
  | nil => rfl
  | cons a t => rw [List.dropWhile_cons_of_neg (by simp [h a (by simp)])]

theorem takeWhile_all {f : Char → Bool} {l r : List Char} (h : ∀ c ∈ l, f c = true) (hr : ∀ c ∈ r.head?, f c = false) :
    (l ++ r).takeWhile f = l ∧ (l ++ r).dropWhile f = r := by
  induction l with
  | nil =>
    cases r with
    | nil => simp
    | cons a t => simp at hr; simp [hr]
  | cons a t ih =>
    obtain ⟨i1, i2⟩ := ih (fun c hc => h c (by simp [hc]))
    simp [h a (by simp), i1, i2]

theorem rstrip_digits {f : Char → Bool} {l r : List Char} (hl : ∀ c ∈ l, f c = false) (hr : ∀ c ∈ r, f c = true) :
    rstrip f (l ++ r) = l := by
  unfold rstrip
  rw [List.reverse_append]
  have := (takeWhile_all (f := f) (l := r.reverse) (r := l.reverse) (fun c hc => hr c (by simpa using hc))
    (fun c hc => hl c (by
      have := List.mem_of_mem_head? hc
      simpa using this))).2
  rw [this, List.reverse_reverse]

theorem stoul_decStr {n : Nat} (h : n < 2 ^ 64) : stoul (decStr n) = .ok n := by
  have hd := decStr_digits n
  unfold stoul
  simp only
  rw [dropWhile_ne (fun c hc => (isDigit_spec (hd c hc)).2.1)]
  have hm : splitSign (decStr n) = (false, decStr n) := by
    cases hl : decStr n with
    | nil => rfl
    | cons c t =>
      have := isDigit_spec (hd c (by rw [hl]; simp))
      rw [splitSign, if_neg this.2.2.2.2.2.2.1, if_neg this.2.2.2.2.2.2.2]
  rw [hm]
  simp only
  have ht := (takeWhile_all (f := isDigit) (l := decStr n) (r := []) hd (by simp)).1
  rw [List.append_nil] at ht
  rw [ht, decVal_decStr]
  rw [if_neg (by simpa using decStr_ne_nil n), if_neg (by omega)]
  simp

/-- the line written for one pair, without its newline -/
def lineOf (it : Nat × Nat) : List Char := decStr it.1 ++ ([' ', '=', ' '] ++ decStr it.2)

theorem readLine_spec (P : Properties) {it : Nat × Nat} (h1 : it.1 < 2 ^ 64) (h2 : it.2 < 2 ^ 32) :
    readLine P (lineOf it) = .ok ⟨P.props ++ [it]⟩ := by
  have d1 := decStr_digits it.1
  have d2 := decStr_digits it.2
  have hne : ∃ c t, decStr it.1 = c :: t := by
    cases h : decStr it.1 with
    | nil => exact absurd h (decStr_ne_nil _)
    | cons c t => exact ⟨c, t, rfl⟩
  obtain ⟨c, t, hct⟩ := hne
  have hc := isDigit_spec (d1 c (by rw [hct]; simp))
  have hdrop : (lineOf it).dropWhile isBlank = lineOf it := by
    unfold lineOf; rw [hct, List.cons_append, List.dropWhile_cons_of_neg (by simp [hc.1])]
  have hcons : lineOf it = c :: (t ++ ([' ', '=', ' '] ++ decStr it.2)) := by
    unfold lineOf; rw [hct]; rfl
  have hsplit : lineOf it = (decStr it.1 ++ [' ']) ++ ('=' :: ' ' :: decStr it.2) := by
    unfold lineOf; simp
  have htd := takeWhile_all (f := fun c => decide (c ≠ '=')) (l := decStr it.1 ++ [' ']) (r := '=' :: ' ' :: decStr it.2)
    (by
      intro c hc
      rcases List.mem_append.mp hc with h | h
      · simpa using (isDigit_spec (d1 c h)).2.2.1
      · simp at h; subst h; decide) (by simp)
  have hkey : rstrip isBlank ((lineOf it).takeWhile (fun c => decide (c ≠ '='))) = decStr it.1 := by
    rw [hsplit, htd.1]
    exact rstrip_digits (fun c hc => (isDigit_spec (d1 c hc)).1) (by simp [isBlank])
  have hdata : rstrip isSpace ((((lineOf it).dropWhile (fun c => decide (c ≠ '='))).drop 1).dropWhile isSpace)
      = decStr it.2 := by
    rw [hsplit, htd.2]
    simp only [List.drop_one, List.tail_cons]
    rw [List.dropWhile_cons_of_pos (by decide), dropWhile_ne (fun c hc => (isDigit_spec (d2 c hc)).2.1)]
    have := rstrip_digits (f := isSpace) (l := decStr it.2) (r := []) (fun c hc => (isDigit_spec (d2 c hc)).2.1) (by simp)
    simpa using this
  have hcontains : (lineOf it).contains '=' = true := by
    rw [List.contains_iff_mem, hsplit]; simp
  unfold readLine
  simp only [hdrop]
  rw [hkey, hcontains]
  simp only [if_true]
  rw [hdata]
  conv_lhs => rw [hcons]
  simp only
  rw [if_neg (by simp [hc.2.2.2.2.1, hc.2.2.2.2.2.1]), if_neg (by simpa using decStr_ne_nil _)]
  rw [if_neg (by simpa using decStr_ne_nil _), stoul_decStr h1, ok_bind, stoul_decStr (by omega), ok_bind]
  rw [Nat.mod_eq_of_lt h2]; rfl

theorem write_cons (it : Nat × Nat) (l : List (Nat × Nat)) :
    write ⟨it :: l⟩ = lineOf it ++ ('\n' :: write ⟨l⟩) := by
  simp [write, lineOf]

theorem readF_spec : ∀ (l : List (Nat × Nat)) (fuel : Nat) (P : Properties), l.length < fuel →
    (∀ it ∈ l, it.1 < 2 ^ 64 ∧ it.2 < 2 ^ 32) →
    readF fuel P (write ⟨l⟩) = .ok ⟨P.props ++ l⟩ := by
  intro l
  induction l with
  | nil =>
    intro fuel P hf _
    obtain ⟨f, rfl⟩ : ∃ f, fuel = f + 1 := ⟨fuel - 1, by simp at hf; omega⟩
    simp [readF, write, getline]
  | cons it t ih =>
    intro fuel P hf h
    obtain ⟨f, rfl⟩ : ∃ f, fuel = f + 1 := ⟨fuel - 1, by simp at hf; omega⟩
    have htd := takeWhile_all (f := fun c => decide (c ≠ '\n')) (l := lineOf it) (r := '\n' :: write ⟨t⟩)
      (by
        intro c hc
        unfold lineOf at hc
        rcases List.mem_append.mp hc with h | h
        · simpa using (isDigit_spec (decStr_digits _ c h)).2.2.2.1
        · rcases List.mem_append.mp h with h | h
          · simp at h; rcases h with rfl | rfl | rfl <;> decide
          · simpa using (isDigit_spec (decStr_digits _ c h)).2.2.2.1) (by simp)
    have hg : getline (write ⟨it :: t⟩) = some (lineOf it, write ⟨t⟩) := by
      rw [write_cons]
      unfold getline
      rw [if_neg (by simp), htd.1, htd.2]; simp
    rw [readF, hg]
    simp only
    rw [readLine_spec P (h it (by simp)).1 (h it (by simp)).2, ok_bind, ih f _ (by simp at hf; omega)
      (fun x hx => h x (by simp [hx]))]
    simp

theorem write_length (l : List (Nat × Nat)) : l.length ≤ (write ⟨l⟩).length := by
  induction l with
  | nil => simp
  | cons a t ih => rw [write_cons]; simp; omega

end Properties
end Quad
