import Verif.Spec.Vec
import Verif.Lemmas.Buffers

/-! # Loops over memory cells -/

namespace Quad.Vec

theorem Shape.refl (H : Heap) : Shape H H := ⟨rfl, fun _ => rfl⟩

theorem Shape.trans {H H1 H2 : Heap} (a : Shape H H1) (b : Shape H1 H2) : Shape H H2 :=
  ⟨b.1.trans a.1, fun x => (b.2 x).trans (a.2 x)⟩

theorem Shape.valid {H H1 : Heap} (a : Shape H H1) {c : Nat × Nat} (v : Valid H c) : Valid H1 c :=
  ⟨by rw [a.1]; exact v.1, by rw [a.2]; exact v.2⟩

theorem rd_cell {H : Heap} {p : Ptr} {i : Nat} (v : Valid H (p.at' i)) : p.rd H i = ok (cell H (p.at' i)) := by
  unfold Ptr.rd
  exact Heap.rdEl_ok v.1 v.2

/-- one cell written -/
def Put (H H' : Heap) (a : Nat × Nat) (x : Nat) : Prop :=
  Shape H H' ∧ ∀ c, cell H' c = if c = a then x else cell H c

theorem wrEl_put {H : Heap} {a : Nat × Nat} {x : Nat} (v : Valid H a) :
    ∃ H', Heap.wrEl H a.1 a.2 x = ok H' ∧ Put H H' a x := by
  refine ⟨_, Heap.wrEl_ok v.1 v.2, ⟨by simp, fun b => ?_⟩, fun c => ?_⟩
  · rw [gt_set v.1]
    by_cases h : b = a.1
    · rw [if_pos h, h]; simp
    · rw [if_neg h]
  · unfold cell
    rw [gt_set v.1]
    by_cases h : c.1 = a.1
    · rw [if_pos h, gt_set v.2]
      by_cases h2 : c.2 = a.2
      · rw [if_pos h2, if_pos (Prod.ext h h2)]
      · rw [if_neg h2, if_neg (fun e => h2 (congrArg Prod.snd e)), h]
    · rw [if_neg h, if_neg (fun e => h (congrArg Prod.fst e))]

theorem wr_put {H : Heap} {p : Ptr} {i x : Nat} (v : Valid H (p.at' i)) :
    ∃ H', p.wr H i x = ok H' ∧ Put H H' (p.at' i) x := wrEl_put v

theorem Effect.zero (H : Heap) (c : Nat → Nat × Nat) (f : Nat → Nat) : Effect H H 0 c f :=
  ⟨.refl H, fun i h => absurd h (Nat.not_lt_zero i), fun _ _ => rfl⟩

/-- a loop writing cell `c i` at turn `i` -/
theorem forN_effect {H : Heap} {n : Nat} {c : Nat → Nat × Nat} {f : Nat → Nat} {body : Nat → Heap → Res Heap}
    (inj : ∀ i j, i < j → j < n → c i ≠ c j)
    (hb : ∀ i H1, i < n → Effect H H1 i c f → ∃ H2, body i H1 = ok H2 ∧ Put H1 H2 (c i) (f i)) :
    ∃ H', forN n H body = ok H' ∧ Effect H H' n c f := by
  refine forN_inv (fun k H1 => Effect H H1 k c f) (.zero H c f) ?_
  intro k H1 hk e
  obtain ⟨H2, e2, p⟩ := hb k H1 hk e
  refine ⟨H2, e2, e.shape.trans p.1, fun i hi => ?_, fun a ha => ?_⟩
  · rw [p.2]
    by_cases h : c i = c k
    · rw [if_pos h]
      by_cases hik : i = k
      · rw [hik]
      · exact absurd h (inj i k (by omega) hk)
    · rw [if_neg h, e.elems i]
      rcases Nat.lt_or_ge i k with q | q
      · exact q
      · exact absurd (by rw [show i = k by omega]) h
  · rw [p.2, if_neg (fun h => ha k (by omega) h.symm), e.frame a (fun i hi => ha i (by omega))]

theorem at_inj (p : Ptr) (n : Nat) : ∀ i j, i < j → j < n → p.at' i ≠ p.at' j := by
  intro i j hij _ h
  have : p.off + i = p.off + j := congrArg Prod.snd h
  omega

theorem Effect.later {H H1 : Heap} {k : Nat} {p : Ptr} {f : Nat → Nat} (e : Effect H H1 k p.at' f) {i : Nat} (hi : k ≤ i) :
    cell H1 (p.at' i) = cell H (p.at' i) := by
  refine e.frame _ (fun j hj h => ?_)
  have : p.off + j = p.off + i := congrArg Prod.snd h
  omega

theorem Effect.source {H H1 : Heap} {n i : Nat} {d s : Ptr} {f : Nat → Nat} (e : Effect H H1 i d.at' f) (hc : Clear d s n)
    (hi : i < n) : cell H1 (s.at' i) = cell H (s.at' i) := by
  refine e.frame _ (fun j hj h => ?_)
  have h1 : d.blk = s.blk := congrArg Prod.fst h
  have h2 : d.off + j = s.off + i := congrArg Prod.snd h
  rcases hc with q | q | q
  · exact q h1
  · omega
  · omega

/-- the `n` cells from `p` on are in memory -/
def Has (H : Heap) (p : Ptr) (n : Nat) : Prop := p.blk < H.size ∧ p.off + n ≤ (gt H p.blk).size

theorem Has.valid {H : Heap} {p : Ptr} {n i : Nat} (h : Has H p n) (hi : i < n) : Valid H (p.at' i) :=
  ⟨h.1, Nat.lt_of_lt_of_le (Nat.add_lt_add_left hi p.off) h.2⟩

theorem Has.mono {H : Heap} {p : Ptr} {n m : Nat} (h : Has H p n) (hm : m ≤ n) : Has H p m :=
  ⟨h.1, Nat.le_trans (Nat.add_le_add_left hm p.off) h.2⟩

theorem Has.shape {H H1 : Heap} {p : Ptr} {n : Nat} (h : Has H p n) (s : Shape H H1) : Has H1 p n :=
  ⟨by rw [s.1]; exact h.1, by rw [s.2]; exact h.2⟩

theorem add_ok {H : Heap} {p : Ptr} {n k : Nat} (h : Has H p n) (hk : k ≤ n) : p.add H k = ok ⟨p.blk, p.off + k⟩ := by
  rw [Ptr.add, rd_gt h.1, ok_bind, if_pos]
  have := h.2
  omega

theorem Has.add {H : Heap} {p : Ptr} {n k m : Nat} (h : Has H p n) (hk : k + m ≤ n) : Has H ⟨p.blk, p.off + k⟩ m :=
  ⟨h.1, by have := h.2; show p.off + k + m ≤ (gt H p.blk).size; omega⟩

theorem at_add (p : Ptr) (k i : Nat) : (⟨p.blk, p.off + k⟩ : Ptr).at' i = p.at' (k + i) := by
  unfold Ptr.at'
  rw [Nat.add_assoc]

/-- in-place map over memory -/
theorem map_effect {H : Heap} {p : Ptr} {n : Nat} (h : Has H p n) (g : Nat → Nat) :
    ∃ H', forN n H (fun i H => do
      let x ← p.rd H i
      p.wr H i (g x)) = ok H' ∧ Effect H H' n p.at' (fun i => g (cell H (p.at' i))) := by
  refine forN_effect (at_inj p n) ?_
  intro i H1 hi e
  have v := e.shape.valid (h.valid hi)
  rw [rd_cell v, ok_bind, e.later (Nat.le_refl i)]
  exact wr_put v

theorem fill_effect {H : Heap} {p : Ptr} {n : Nat} (h : Has H p n) (g : Nat → Nat) :
    ∃ H', forN n H (fun i H => p.wr H i (g i)) = ok H' ∧ Effect H H' n p.at' g := by
  refine forN_effect (at_inj p n) ?_
  intro i H1 hi e
  exact wr_put (e.shape.valid (h.valid hi))

theorem zip_effect {H : Heap} {d s : Ptr} {n : Nat} (hd : Has H d n) (hs : Has H s n) (hc : Clear d s n)
    (op : Nat → Nat → Nat) :
    ∃ H', Obj.zipMem op H d s n = ok H' ∧
      Effect H H' n d.at' (fun i => op (cell H (d.at' i)) (cell H (s.at' i))) := by
  refine forN_effect (at_inj d n) ?_
  intro i H1 hi e
  have v := e.shape.valid (hd.valid hi)
  rw [rd_cell v, ok_bind, rd_cell (e.shape.valid (hs.valid hi)), ok_bind, e.later (Nat.le_refl i),
    e.source hc hi]
  exact wr_put v

theorem copy_n_effect {H : Heap} {d s : Ptr} {n : Nat} (hd : Has H d n) (hs : Has H s n) (hc : Clear d s n) :
    ∃ H', copy_n H s n d = ok H' ∧ Effect H H' n d.at' (fun i => cell H (s.at' i)) := by
  unfold copy_n
  rw [if_neg]
  · refine forN_effect (at_inj d n) ?_
    intro i H1 hi e
    rw [rd_cell (e.shape.valid (hs.valid hi)), ok_bind, e.source hc hi]
    exact wr_put (e.shape.valid (hd.valid hi))
  · rintro ⟨h1, h2, h3⟩
    rcases hc with q | q | q
    · exact q h1.symm
    · omega
    · omega

theorem copyZ_effect {H : Heap} {d s : Ptr} {l n : Nat} (hd : Has H d n) (hs : Has H s l) (hc : Clear d s n) :
    ∃ H', Obj.copyZ H s l n d = ok H' ∧
      Effect H H' n d.at' (fun i => if i < l then cell H (s.at' i) else 0) := by
  unfold Obj.copyZ
  by_cases hl : l ≥ n
  · rw [if_pos hl]
    obtain ⟨H', e, ef⟩ := copy_n_effect hd (hs.mono hl) hc
    refine ⟨H', e, ef.shape, fun i hi => ?_, ef.frame⟩
    rw [ef.elems i hi, if_pos (by omega)]
  · rw [if_neg hl]
    have hc' : Clear d s l := by
      rcases hc with q | q | q
      · exact Or.inl q
      · exact Or.inr (Or.inl q)
      · exact Or.inr (Or.inr (by omega))
    obtain ⟨H1, e1, ef⟩ := copy_n_effect (hd.mono (by omega)) hs hc'
    rw [e1, ok_bind]
    have hd1 := hd.shape ef.shape
    rw [add_ok hd1 (show l ≤ n by omega), ok_bind]
    obtain ⟨H2, e2, ef2⟩ := fill_effect (hd1.add (k := l) (m := n - l) (by omega)) (fun _ => 0)
    refine ⟨H2, e2, ef.shape.trans ef2.shape, fun i hi => ?_, fun a ha => ?_⟩
    · by_cases hil : i < l
      · rw [if_pos hil, ef2.frame, ef.elems i hil]
        intro j hj h
        rw [at_add] at h
        have : d.off + (l + j) = d.off + i := congrArg Prod.snd h
        omega
      · rw [if_neg hil]
        have := ef2.elems (i - l) (by omega)
        rw [at_add, show l + (i - l) = i by omega] at this
        exact this
    · rw [ef2.frame, ef.frame]
      · exact fun i hi => ha i (by omega)
      · intro i hi
        rw [at_add]
        exact ha (l + i) (by omega)

/-! ## Vectors and slices -/

theorem Plain.has {H : Heap} {o : Obj} (h : Plain H o) : Has H o.base.mem o.base.n :=
  ⟨h.blk, Nat.le_trans (Nat.add_le_add_left h.len _) h.room⟩

theorem Plain.hasMem {H : Heap} {o : Obj} (h : Plain H o) : Has H o.base.mem o.base.mem_len := ⟨h.blk, h.room⟩

theorem Plain.shape {H H1 : Heap} {o : Obj} (h : Plain H o) (s : Shape H H1) : Plain H1 o :=
  ⟨h.cls, by rw [s.1]; exact h.blk, h.len, by rw [s.2]; exact h.room⟩

theorem Plain.get_n {H : Heap} {o : Obj} (h : Plain H o) : o.get_n = o.base.n := by
  rcases h.cls with ⟨v, rfl⟩ | ⟨v, l, k, rfl⟩ <;> rfl

theorem Plain.get {H : Heap} {o : Obj} (h : Plain H o) {i : Nat} (hi : i < o.base.n) :
    o.get H i = ok (cell H (o.at' i)) := by
  have v := h.has.valid hi
  rcases h.cls with ⟨w, rfl⟩ | ⟨w, l, k, rfl⟩ <;>
  · simp only [Obj.get, cassert, decide_eq_true (show i < w.n from hi), if_true, ok_bind]
    exact rd_cell v

theorem Plain.set {H : Heap} {o : Obj} (h : Plain H o) {i x : Nat} (hi : i < o.base.n) :
    ∃ H', o.set H i x = ok H' ∧ Put H H' (o.at' i) x := by
  have v := h.has.valid hi
  rcases h.cls with ⟨w, rfl⟩ | ⟨w, l, k, rfl⟩ <;>
  · simp only [Obj.set, cassert, decide_eq_true (show i < w.n from hi), if_true, ok_bind]
    exact wr_put v

/-- a class whose `get` and `set` go to cell `c i` -/
structure Shows (H : Heap) (o : Obj) (n : Nat) (c : Nat → Nat × Nat) : Prop where
  get : ∀ H1 i, Shape H H1 → i < n → o.get H1 i = ok (cell H1 (c i))
  set : ∀ H1 i x, Shape H H1 → i < n → ∃ H2, o.set H1 i x = ok H2 ∧ Put H1 H2 (c i) x

theorem Plain.shows {H : Heap} {o : Obj} (h : Plain H o) : Shows H o o.base.n o.at' :=
  ⟨fun _ _ s hi => (h.shape s).get hi, fun _ _ _ s hi => (h.shape s).set hi⟩

theorem Shows.view {H : Heap} {o : Obj} {N : Nat} {c : Nat → Nat × Nat} (s : Shows H o N c) (hN : 0 < N) (v : Base)
    (offset step : Nat) :
    Shows H (.view v o offset step N) v.n (fun i => c ((offset + step * i) % N)) := by
  refine ⟨fun H1 i sh hi => ?_, fun H1 i x sh hi => ?_⟩
  · simp only [Obj.get, cassert, decide_eq_true hi, if_true, ok_bind]
    rw [if_neg (by omega)]
    exact s.get H1 _ sh (Nat.mod_lt _ hN)
  · simp only [Obj.set, cassert, decide_eq_true hi, if_true, ok_bind]
    rw [if_neg (by omega)]
    exact s.set H1 _ x sh (Nat.mod_lt _ hN)

theorem Shows.zero_fill {H : Heap} {o : Obj} {c : Nat → Nat × Nat} (s : Shows H o o.base.n c)
    (inj : ∀ i j, i < j → j < o.base.n → c i ≠ c j) :
    ∃ H', o.zero_fill H = ok H' ∧ Effect H H' o.base.n c (fun _ => 0) :=
  forN_effect inj fun i H1 hi e => s.set H1 i 0 e.shape hi

theorem Shows.mul_scalar {H : Heap} {o : Obj} {c : Nat → Nat × Nat} (F : GF) (a : Nat) (s : Shows H o o.base.n c)
    (inj : ∀ i j, i < j → j < o.base.n → c i ≠ c j) :
    ∃ H', o.mul_scalar F H a = ok H' ∧ Effect H H' o.base.n c (fun i => F.mul (cell H (c i)) a) := by
  refine forN_effect inj ?_
  intro i H1 hi e
  rw [s.get H1 i e.shape hi, ok_bind, e.frame (c i) (fun j hj => inj j i hj hi)]
  exact s.set H1 i _ e.shape hi

theorem mul_beta_effect {H : Heap} {o : Obj} (F : GF) (beta : Nat) (h : Plain H o) :
    ∃ H', o.mul_beta F H beta = ok H' ∧
      Effect H H' o.base.n o.at' (fun i => if i = 0 then cell H (o.at' 0)
        else F.mul (cell H (o.at' i)) (powBy F beta (i - 1))) := by
  unfold Obj.mul_beta
  have hh := h.has
  have key : ∃ r, forN (o.base.n - 1) (H, beta) (fun t s => do
      let x ← o.base.mem.rd s.1 (t + 1)
      let H ← o.base.mem.wr s.1 (t + 1) (F.mul x s.2)
      ok (H, F.mul s.2 beta)) = ok r ∧
      (Effect H r.1 (o.base.n - 1) (fun t => o.at' (t + 1))
        (fun t => F.mul (cell H (o.at' (t + 1))) (powBy F beta t)) ∧ r.2 = powBy F beta (o.base.n - 1)) := by
    refine forN_inv (fun k (s : Heap × Nat) => Effect H s.1 k (fun t => o.at' (t + 1))
        (fun t => F.mul (cell H (o.at' (t + 1))) (powBy F beta t)) ∧ s.2 = powBy F beta k)
      ⟨.zero _ _ _, rfl⟩ ?_
    rintro k s hk ⟨e, e2⟩
    have v := e.shape.valid (hh.valid (show k + 1 < o.base.n by omega))
    obtain ⟨H2, w, p⟩ := wr_put v (x := F.mul (cell H (o.at' (k + 1))) s.2)
    have l : cell s.1 (o.base.mem.at' (k + 1)) = cell H (o.at' (k + 1)) := by
      refine e.frame _ (fun j hj hq => ?_)
      have : o.base.mem.off + (j + 1) = o.base.mem.off + (k + 1) := congrArg Prod.snd hq
      omega
    refine ⟨(H2, F.mul s.2 beta), by rw [rd_cell v, ok_bind, l, w, ok_bind], ⟨e.shape.trans p.1, ?_, ?_⟩, ?_⟩
    · intro i hi
      show cell H2 (o.at' (i + 1)) = _
      rw [p.2]
      by_cases q : i = k
      · subst q
        rw [if_pos (show o.at' (i + 1) = o.base.mem.at' (i + 1) from rfl), e2]
      · rw [if_neg, e.elems i (by omega)]
        intro hq
        have : o.base.mem.off + (i + 1) = o.base.mem.off + (k + 1) := congrArg Prod.snd hq
        omega
    · intro a ha
      rw [p.2, if_neg (fun q => ha k (by omega) q.symm), e.frame a (fun i hi => ha i (by omega))]
    · show F.mul s.2 beta = F.mul (powBy F beta k) beta
      rw [e2]
  obtain ⟨r, e, ef, -⟩ := key
  rw [e, ok_bind]
  refine ⟨r.1, rfl, ef.shape, fun i hi => ?_, fun a ha => ef.frame a (fun i hi => ha (i + 1) (by omega))⟩
  by_cases q : i = 0
  · subst q
    rw [if_pos rfl]
    refine ef.frame _ (fun j hj hq => ?_)
    have : o.base.mem.off + (j + 1) = o.base.mem.off + 0 := congrArg Prod.snd hq
    omega
  · rw [if_neg q]
    have := ef.elems (i - 1) (by omega)
    simp only [show i - 1 + 1 = i by omega] at this
    exact this

theorem load_eq {H : Heap} {p : Ptr} {n : Nat} (h : Has H p n) :
    Obj.load H p n = ok ((List.range n).map (fun i => cell H (p.at' i))).toArray := by
  unfold Obj.load
  induction n with
  | zero => rfl
  | succ n ih =>
    rw [forN, ih (h.mono (by omega)), ok_bind, rd_cell (h.valid (by omega)), ok_bind, List.range_succ,
      List.map_append]
    simp

theorem eqFrom_eq {H : Heap} {l r : Obj} {f g : Nat → Nat} :
    ∀ k i, (∀ j, i ≤ j → j < i + k → l.get H j = ok (f j) ∧ r.get H j = ok (g j)) →
      ∃ b, Obj.eqFrom H l r k i = ok b ∧ (b = true ↔ ∀ j, i ≤ j → j < i + k → f j = g j) := by
  intro k
  induction k with
  | zero =>
    intro i _
    exact ⟨true, rfl, fun _ j h1 h2 => by omega, fun _ => rfl⟩
  | succ k ih =>
    intro i h
    have h0 := h i (Nat.le_refl i) (by omega)
    rw [Obj.eqFrom, h0.1, ok_bind, h0.2, ok_bind]
    by_cases q : f i = g i
    · rw [if_neg (fun c => c q)]
      obtain ⟨b, e, hb⟩ := ih (i + 1) (fun j h1 h2 => h j (by omega) (by omega))
      refine ⟨b, e, hb.trans ⟨fun a j h1 h2 => ?_, fun a j h1 h2 => a j (by omega) (by omega)⟩⟩
      by_cases e : j = i
      · rw [e]; exact q
      · exact a j (by omega) (by omega)
    · rw [if_pos q]
      exact ⟨false, rfl, fun c => (by cases c), fun a => absurd (a i (Nat.le_refl i) (by omega)) q⟩

theorem sliceLen_eq (n offset base_len : Nat) : Obj.sliceLen n offset base_len = min n (base_len - offset) := by
  unfold Obj.sliceLen
  split
  · omega
  · split <;> omega

end Quad.Vec
