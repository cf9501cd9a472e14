import Verif.Lemmas.BufElem

/-!
Operations on memory acting column by column: `φ` maps the entries at one column
of all blocks to the new entries of that column.
-/

namespace Quad

/-- the blocks of `bl` have `len` entries, all below `p` -/
def Good (p len : Nat) (bl : Nat → Prop) (H : Heap) : Prop :=
  ∀ b, bl b → b < H.size ∧ (gt H b).size = len ∧ ∀ c, c < len → el H b c < p

/-- `φ` keeps the entries of the blocks of `bl` below `p` and only changes these -/
structure Pres (p : Nat) (bl : Nat → Prop) (φ : (Nat → Nat) → Nat → Nat) : Prop where
  lt : ∀ v, (∀ b, bl b → v b < p) → ∀ b, bl b → φ v b < p
  out : ∀ v b, ¬ bl b → φ v b = v b

/-- `op` is `φ` on the columns of `S` and changes nothing else -/
def Cols (p len : Nat) (bl : Nat → Prop) (S : Nat → Prop) [DecidablePred S] (φ : (Nat → Nat) → Nat → Nat)
    (op : Heap → Res Heap) : Prop :=
  ∀ H, Good p len bl H → ∃ H', op H = .ok H' ∧ H'.size = H.size ∧ (∀ b, (gt H' b).size = (gt H b).size) ∧
    ∀ b c, el H' b c = if S c then φ (fun b => el H b c) b else el H b c

theorem heap_ext {H H' : Heap} (hs : H.size = H'.size) (hb : ∀ b, (gt H b).size = (gt H' b).size)
    (he : ∀ b c, el H b c = el H' b c) : H = H' :=
  gt_ext hs (fun b _ => gt_ext (hb b) (fun c _ => he b c))

variable {p len : Nat} {bl : Nat → Prop} {S T : Nat → Prop} [DecidablePred S] [DecidablePred T]
  {φ ψ : (Nat → Nat) → Nat → Nat} {f g : Heap → Res Heap}

theorem Cols.unique (hf : Cols p len bl S φ f) (hg : Cols p len bl S φ g) {H : Heap} (h : Good p len bl H) : f H = g H := by
  obtain ⟨H1, e1, s1, b1, c1⟩ := hf H h
  obtain ⟨H2, e2, s2, b2, c2⟩ := hg H h
  rw [e1, e2, heap_ext (s1.trans s2.symm) (fun b => (b1 b).trans (b2 b).symm) (fun b c => (c1 b c).trans (c2 b c).symm)]

theorem Cols.good (hφ : Pres p bl φ) {H H' : Heap} (h : Good p len bl H) (s : H'.size = H.size)
    (b : ∀ b, (gt H' b).size = (gt H b).size)
    (c : ∀ b c, el H' b c = if S c then φ (fun b => el H b c) b else el H b c) : Good p len bl H' := by
  intro x hx
  obtain ⟨h1, h2, h3⟩ := h x hx
  refine ⟨by omega, by rw [b]; exact h2, fun i hi => ?_⟩
  rw [c]
  split
  · exact hφ.lt _ (fun y hy => (h y hy).2.2 i hi) x hx
  · exact h3 i hi

theorem Cols.idle : Cols p len bl (fun _ => False) φ (fun H => .ok H) :=
  fun H _ => ⟨H, rfl, rfl, fun _ => rfl, fun _ _ => by simp⟩

/-- two operations on the same columns -/
theorem Cols.seq (hφ : Pres p bl φ) (hf : Cols p len bl S φ f) (hg : Cols p len bl S ψ g) :
    Cols p len bl S (ψ ∘ φ) (fun H => f H >>= g) := by
  intro H h
  obtain ⟨H1, e1, s1, b1, c1⟩ := hf H h
  obtain ⟨H2, e2, s2, b2, c2⟩ := hg H1 (Cols.good hφ h s1 b1 c1)
  refine ⟨H2, by simp only [e1, ok_bind, e2], s2.trans s1, fun b => (b2 b).trans (b1 b), fun b c => ?_⟩
  rw [c2]
  by_cases hS : S c
  · simp only [if_pos hS, Function.comp_apply]
    congr 1
    funext y
    rw [c1, if_pos hS]
  · simp only [if_neg hS]
    rw [c1, if_neg hS]

/-- the same operation on two sets of columns -/
theorem Cols.union {U : Nat → Prop} [DecidablePred U] (hφ : Pres p bl φ) (hU : ∀ c, U c ↔ S c ∨ T c)
    (hd : ∀ c, S c → ¬ T c) (hf : Cols p len bl S φ f) (hg : Cols p len bl T φ g) :
    Cols p len bl U φ (fun H => f H >>= g) := by
  intro H h
  obtain ⟨H1, e1, s1, b1, c1⟩ := hf H h
  obtain ⟨H2, e2, s2, b2, c2⟩ := hg H1 (Cols.good hφ h s1 b1 c1)
  refine ⟨H2, by simp only [e1, ok_bind, e2], s2.trans s1, fun b => (b2 b).trans (b1 b), fun b c => ?_⟩
  rw [c2]
  by_cases hS : S c
  · rw [if_neg (hd c hS), c1, if_pos hS, if_pos ((hU c).mpr (.inl hS))]
  · by_cases hT : T c
    · rw [if_pos hT, if_pos ((hU c).mpr (.inr hT))]
      congr 1
      funext y
      rw [c1, if_neg hS]
    · rw [if_neg hT, c1, if_neg hS, if_neg (fun hu => ((hU c).mp hu).elim hS hT)]

theorem Cols.congr (hST : ∀ c, S c ↔ T c) (hf : Cols p len bl S φ f) (hfg : ∀ H, Good p len bl H → f H = g H) :
    Cols p len bl T φ g := by
  intro H h
  obtain ⟨H1, e1, s1, b1, c1⟩ := hf H h
  refine ⟨H1, by rw [← hfg H h, e1], s1, b1, fun b c => ?_⟩
  rw [c1]
  by_cases hS : S c
  · rw [if_pos hS, if_pos ((hST c).mp hS)]
  · rw [if_neg hS, if_neg (fun h => hS ((hST c).mpr h))]

theorem Cols.map (h : ∀ v, (∀ b, bl b → v b < p) → φ v = ψ v) (hS : ∀ c, S c → c < len) (hf : Cols p len bl S φ f) : Cols p len bl S ψ f := by
  intro H hH
  obtain ⟨H1, e1, s1, b1, c1⟩ := hf H hH
  refine ⟨H1, e1, s1, b1, fun b c => ?_⟩
  rw [c1]
  by_cases hc : S c
  · rw [if_pos hc, if_pos hc, h _ (fun y hy => (hH y hy).2.2 c (hS c hc))]
  · rw [if_neg hc, if_neg hc]

/-- a loop whose turn `j` acts on the columns `[j*k, (j+1)*k)` -/
theorem Cols.loop {k n : Nat} {body : Nat → Heap → Res Heap} (hφ : Pres p bl φ)
    (hb : ∀ j, j < n → Cols p len bl (fun c => j * k ≤ c ∧ c < (j + 1) * k) φ (body j)) :
    Cols p len bl (fun c => c < n * k) φ (fun H => forN n H body) := by
  induction n with
  | zero => exact Cols.congr (S := fun _ => False) (by simp) Cols.idle (fun _ _ => rfl)
  | succ n ih =>
    refine Cols.union hφ (S := fun c => c < n * k) (T := fun c => n * k ≤ c ∧ c < (n + 1) * k) (fun c => ?_) (fun c hc => by omega)
      (ih (fun j hj => hb j (by omega))) (hb n (by omega))
    have : (n + 1) * k = n * k + k := by ring
    omega

/-- a loop over the columns `[a, e)` one at a time -/
theorem Cols.loopFrom {a e : Nat} {body : Nat → Heap → Res Heap} (hφ : Pres p bl φ) (hae : a ≤ e)
    (hb : ∀ j, a ≤ j → j < e → Cols p len bl (fun c => c = j) φ (body j)) :
    Cols p len bl (fun c => a ≤ c ∧ c < e) φ (fun H => forStep a e 1 H body) := by
  unfold forStep
  have hst : stride a e 1 = e - a := by unfold stride; omega
  rw [hst]
  have : ∀ n, n ≤ e - a → Cols p len bl (fun c => a ≤ c ∧ c < a + n) φ (fun H => forN n H (fun t s => body (a + t * 1) s)) := by
    intro n
    induction n with
    | zero => intro _; exact Cols.congr (S := fun _ => False) (fun c => ⟨False.elim, fun h => by omega⟩) Cols.idle (fun _ _ => rfl)
    | succ n ih =>
      intro hn
      refine Cols.union hφ (S := fun c => a ≤ c ∧ c < a + n) (T := fun c => c = a + n * 1) (fun c => by omega) (fun c hc => by omega)
        (ih (by omega)) (hb (a + n * 1) (by omega) (by omega))
  have := this (e - a) (le_refl _)
  rwa [show a + (e - a) = e by omega] at this

theorem Cols.loop1 {n : Nat} {body : Nat → Heap → Res Heap} (hφ : Pres p bl φ)
    (hb : ∀ j, j < n → Cols p len bl (fun c => c = j) φ (body j)) :
    Cols p len bl (fun c => c < n) φ (fun H => Quad.forN n H body) := by
  have := Cols.loop (k := 1) (n := n) hφ (fun j hj => Cols.congr (T := fun c => j * 1 ≤ c ∧ c < (j + 1) * 1)
    (fun c => ⟨fun h => by omega, fun h => by omega⟩) (hb j hj) (fun _ _ => rfl))
  exact Cols.congr (fun c => by simp) this (fun _ _ => rfl)

/-- `φ 0`, then `φ 1`, ... -/
def compN (φ : Nat → (Nat → Nat) → Nat → Nat) : Nat → (Nat → Nat) → Nat → Nat
  | 0 => id
  | n + 1 => φ n ∘ compN φ n

theorem Pres.id : Pres p bl id := ⟨fun _ h b hb => h b hb, fun _ _ _ => rfl⟩

theorem Pres.comp (h1 : Pres p bl φ) (h2 : Pres p bl ψ) : Pres p bl (ψ ∘ φ) :=
  ⟨fun v hv b hb => h2.lt _ (fun b hb => h1.lt v hv b hb) b hb, fun v b hb => (h2.out _ b hb).trans (h1.out v b hb)⟩

theorem Pres.compN {φ : Nat → (Nat → Nat) → Nat → Nat} {n : Nat} (h : ∀ i, i < n → Pres p bl (φ i)) :
    Pres p bl (compN φ n) := by
  induction n with
  | zero => exact Pres.id
  | succ n ih => exact Pres.comp (ih (fun i hi => h i (by omega))) (h n (by omega))

/-- a loop of operations on the same columns -/
theorem Cols.forN {φ : Nat → (Nat → Nat) → Nat → Nat} {n : Nat} {body : Nat → Heap → Res Heap}
    (hφ : ∀ i, i < n → Pres p bl (φ i)) (hb : ∀ i, i < n → Cols p len bl S (φ i) (body i)) :
    Cols p len bl S (compN φ n) (fun H => Quad.forN n H body) := by
  induction n with
  | zero => exact fun H _ => ⟨H, rfl, rfl, fun _ => rfl, fun _ _ => by simp [Quad.compN]⟩
  | succ n ih =>
    exact Cols.seq (Pres.compN (fun i hi => hφ i (by omega))) (ih (fun i hi => hφ i (by omega)) (fun i hi => hb i (by omega)))
      (hb n (by omega))

/-- two loops one after the other, when a turn of the second commutes with the other turns of the first -/
theorem compN_fuse {φ ψ : Nat → (Nat → Nat) → Nat → Nat} {n : Nat}
    (hc : ∀ i j, i < n → j < n → i ≠ j → ψ j ∘ φ i = φ i ∘ ψ j) :
    compN ψ n ∘ compN φ n = compN (fun i => ψ i ∘ φ i) n := by
  have comm : ∀ m i, i < n → m ≤ i → compN ψ m ∘ φ i = φ i ∘ compN ψ m := by
    intro m
    induction m with
    | zero => intro i _ _; rfl
    | succ m ih =>
      intro i hi hm
      show (ψ m ∘ compN ψ m) ∘ φ i = φ i ∘ ψ m ∘ compN ψ m
      rw [Function.comp_assoc, ih i hi (by omega), ← Function.comp_assoc, hc i m hi (by omega) (by omega), Function.comp_assoc]
  have : ∀ m, m ≤ n → compN ψ m ∘ compN φ m = compN (fun i => ψ i ∘ φ i) m := by
    intro m
    induction m with
    | zero => intro _; rfl
    | succ m ih =>
      intro hm
      show (ψ m ∘ compN ψ m) ∘ φ m ∘ compN φ m = (ψ m ∘ φ m) ∘ compN (fun i => ψ i ∘ φ i) m
      rw [← ih (by omega), Function.comp_assoc, ← Function.comp_assoc (compN ψ m), comm m m (by omega) (le_refl _)]
      rfl
  exact this n (le_refl _)

theorem compN_congr {φ ψ : Nat → (Nat → Nat) → Nat → Nat} {n : Nat} (h : ∀ i, i < n → φ i = ψ i) : compN φ n = compN ψ n := by
  induction n with
  | zero => rfl
  | succ n ih => simp only [compN]; rw [h n (by omega), ih (fun i hi => h i (by omega))]

end Quad
