/-!
# Outcomes, words and loops

Common vocabulary of the model.  Nothing here models one particular C++
function; every construct of the C++ sources that the model uses is mapped
here once.
-/

namespace Quad

/-- How a C++ call can end other than by returning a value.
* `throws k`   : a C++ exception of class `k` (src/exceptions.h; `badAlloc` is `std::bad_alloc`)
* `assertFail` : `assert(...)` is false (an abort in debug builds)
* `ub`         : undefined behaviour (out-of-range access, division by zero, ...)
* `diverges`   : the loop does not terminate (model loops carry fuel; a theorem
                 concluding `ok` shows the fuel was enough) -/
inductive Exn where
  | domainError | invalidArgument | noSolution | logicError | badAlloc
  deriving DecidableEq, Repr

inductive Err where
  | throws (k : Exn)
  | assertFail
  | ub
  | diverges
  deriving DecidableEq, Repr

/-- Result of a modelled C++ call. -/
abbrev Res (α : Type _) := Except Err α

abbrev ub {α : Type _} : Res α := .error .ub
abbrev ok {α : Type _} (a : α) : Res α := .ok a

/-- `assert(c)` -/
def cassert (c : Bool) : Res Unit := if c then .ok () else .error .assertFail

/-- Value of an unsigned `b`-bit word computed as `x` (wrap-around). -/
def wrap (b x : Nat) : Nat := x % 2 ^ b

/-- `for (i = 0; i < n; i++) s = body(i, s)` -/
def forN {σ : Type _} : Nat → σ → (Nat → σ → Res σ) → Res σ
  | 0, s, _ => .ok s
  | n + 1, s, f => do
      let s' ← forN n s f
      f n s'

/-- number of iterations of `for (i = a; i < b; i += st)`, `st > 0` -/
def stride (a b st : Nat) : Nat := (b - a + (st - 1)) / st

/-- `for (i = a; i < b; i += st) s = body(i, s)`, `st > 0` -/
def forStep {σ : Type _} (a b st : Nat) (s : σ) (f : Nat → σ → Res σ) : Res σ :=
  forN (stride a b st) s (fun t s => f (a + t * st) s)

/-- checked array read `a[i]` -/
def rd {α : Type _} (a : Array α) (i : Nat) : Res α :=
  match a[i]? with
  | some x => .ok x
  | none => .error .ub

/-- checked array write `a[i] = x` -/
def wr {α : Type _} (a : Array α) (i : Nat) (x : α) : Res (Array α) :=
  if i < a.size then .ok (a.setIfInBounds i x) else .error .ub

/-! ## Rules -/

@[simp] theorem ok_bind {α β} (a : α) (f : α → Res β) : ((Except.ok a : Res α) >>= f) = f a := rfl

@[simp] theorem error_bind {α β} (e : Err) (f : α → Res β) :
    ((Except.error e : Res α) >>= f) = .error e := rfl

/-- Total-correctness rule for `forN`. -/
theorem forN_inv {σ : Type _} {n : Nat} {s : σ} {f : Nat → σ → Res σ} (I : Nat → σ → Prop)
    (h0 : I 0 s)
    (hs : ∀ k s, k < n → I k s → ∃ s', f k s = .ok s' ∧ I (k + 1) s') :
    ∃ s', forN n s f = .ok s' ∧ I n s' := by
  induction n with
  | zero => exact ⟨s, rfl, h0⟩
  | succ n ih =>
    obtain ⟨s1, e1, i1⟩ := ih (fun k s hk hi => hs k s (by omega) hi)
    obtain ⟨s2, e2, i2⟩ := hs n s1 (by omega) i1
    exact ⟨s2, by simp [forN, e1, e2], i2⟩

/-- Total-correctness rule for `forStep`. -/
theorem forStep_inv {σ : Type _} {a b st : Nat} {s : σ} {f : Nat → σ → Res σ} (I : Nat → σ → Prop)
    (hst : 0 < st) (h0 : I 0 s)
    (hs : ∀ k s, a + k * st < b → I k s → ∃ s', f (a + k * st) s = .ok s' ∧ I (k + 1) s') :
    ∃ s', forStep a b st s f = .ok s' ∧ I (stride a b st) s' := by
  refine forN_inv I h0 (fun k s hk hi => hs k s ?_ hi)
  unfold stride at hk
  have h1 : k + 1 ≤ (b - a + (st - 1)) / st := hk
  rw [Nat.le_div_iff_mul_le hst] at h1
  have : (k + 1) * st = k * st + st := by rw [Nat.add_mul, Nat.one_mul]
  omega

theorem rd_ok {α} {a : Array α} {i : Nat} (h : i < a.size) : rd a i = .ok a[i] := by
  simp [rd, h]

theorem wr_ok {α} {a : Array α} {i : Nat} {x : α} (h : i < a.size) :
    wr a i x = .ok (a.setIfInBounds i x) := by
  simp [wr, h]

/-- contents of an array as a function of the index, used to state results -/
def gt {α : Type _} [Inhabited α] (a : Array α) (i : Nat) : α := a.getD i default

theorem rd_gt {α} [Inhabited α] {a : Array α} {i : Nat} (h : i < a.size) : rd a i = .ok (gt a i) := by
  simp [rd, gt, h]

theorem gt_eq {α} [Inhabited α] {a : Array α} {i : Nat} (h : i < a.size) : gt a i = a[i] := by
  simp [gt, h]

@[simp] theorem size_set {α} (a : Array α) (i : Nat) (x : α) : (a.setIfInBounds i x).size = a.size := by
  simp

theorem gt_set {α} [Inhabited α] {a : Array α} {i j : Nat} {x : α} (h : i < a.size) :
    gt (a.setIfInBounds i x) j = if j = i then x else gt a j := by
  unfold gt
  by_cases hj : j = i
  · subst hj; simp [h]
  · rw [if_neg hj]
    by_cases hs : j < a.size
    · simp [hs, Ne.symm hj]
    · simp [hs]

theorem gt_ext {α} [Inhabited α] {a c : Array α} (hs : a.size = c.size)
    (h : ∀ i, i < a.size → gt a i = gt c i) : a = c := by
  apply Array.ext hs
  intro i h1 h2
  have := h i h1
  rwa [gt_eq h1, gt_eq h2] at this

theorem gt_replicate {α} [Inhabited α] {n i : Nat} {x : α} (h : i < n) : gt (Array.replicate n x) i = x := by
  simp [gt, h]

theorem gt_ofFn {α} [Inhabited α] {n : Nat} {f : Fin n → α} {i : Nat} (h : i < n) :
    gt (Array.ofFn f) i = f ⟨i, h⟩ := by
  simp [gt, h]

/-- `for` loop filling entry `i` of an array with `g i` -/
theorem forN_fill {α} [Inhabited α] {n : Nat} {a : Array α} (g : Nat → α) (hn : n ≤ a.size) :
    ∃ a', forN n a (fun i a => wr a i (g i)) = .ok a' ∧ a'.size = a.size ∧
      ∀ j, gt a' j = if j < n then g j else gt a j := by
  refine forN_inv (I := fun k (a' : Array α) => a'.size = a.size ∧
      ∀ j, gt a' j = if j < k then g j else gt a j) ?_ ?_
  · simp
  · rintro k s hk ⟨h1, h2⟩
    refine ⟨_, wr_ok (by omega), by simp [h1], ?_⟩
    intro j
    rw [gt_set (by omega), h2]
    by_cases hj : j = k
    · subst hj; simp
    · rw [if_neg hj]
      by_cases hlt : j < k
      · rw [if_pos hlt, if_pos (by omega)]
      · rw [if_neg hlt, if_neg (by omega)]

end Quad
