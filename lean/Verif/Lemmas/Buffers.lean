import Verif.Model.Buffers
import Verif.Lemmas.Fft2nPrime

/-!
The transform on buffers in memory computes what the transform on an array of
packets computes, when the output pointers are distinct and not among the input
pointers.
-/

namespace Quad

namespace Heap

theorem rdEl_ok {H : Heap} {p j : Nat} (hp : p < H.size) (hj : j < (gt H p).size) :
    rdEl H p j = .ok (gt (gt H p) j) := by
  unfold rdEl; rw [rd_gt hp, ok_bind, rd_gt hj]

theorem wrEl_ok {H : Heap} {p j x : Nat} (hp : p < H.size) (hj : j < (gt H p).size) :
    wrEl H p j x = .ok (H.setIfInBounds p ((gt H p).setIfInBounds j x)) := by
  unfold wrEl; rw [rd_gt hp, ok_bind, wr_ok hj, ok_bind, wr_ok hp]

end Heap

/-- `H'` differs from `H` at most in the contents of block `d` -/
def OnlyAt (d : Nat) (H H' : Heap) : Prop := H'.size = H.size ∧ ∀ b, b ≠ d → gt H' b = gt H b

/-- a loop writing entry `j` of block `d` in turn `j` -/
theorem blockLoop {H : Heap} {d pkt : Nat} {f : Nat → Nat} {body : Nat → Heap → Res Heap} (hd : d < H.size)
    (hs : (gt H d).size = pkt)
    (hb : ∀ j H', j < pkt → OnlyAt d H H' → (gt H' d).size = pkt →
      (∀ i, gt (gt H' d) i = if i < j then f i else gt (gt H d) i) → body j H' = Heap.wrEl H' d j (f j)) :
    ∃ H', forN pkt H body = .ok H' ∧ OnlyAt d H H' ∧ (gt H' d).size = pkt ∧ ∀ i, i < pkt → gt (gt H' d) i = f i := by
  obtain ⟨H', e, h1, h2, h3⟩ := forN_inv (n := pkt) (s := H) (f := body)
    (I := fun k H' => OnlyAt d H H' ∧ (gt H' d).size = pkt ∧
      ∀ i, gt (gt H' d) i = if i < k then f i else gt (gt H d) i)
    ⟨⟨rfl, fun _ _ => rfl⟩, hs, by simp⟩ (by
      rintro k H1 hk ⟨h1, h2, h3⟩
      have hd1 : d < H1.size := by rw [h1.1]; exact hd
      refine ⟨_, by rw [hb k H1 hk h1 h2 h3, Heap.wrEl_ok hd1 (by omega)], ⟨by simp [h1.1], ?_⟩, ?_, ?_⟩
      · intro b hb; rw [gt_set hd1, if_neg hb]; exact h1.2 b hb
      · rw [gt_set hd1, if_pos rfl]; simp [h2]
      · intro i
        rw [gt_set hd1, if_pos rfl, gt_set (by omega)]
        by_cases hi : i = k
        · subst hi; rw [if_pos rfl, if_pos (by omega)]
        · rw [if_neg hi, h3]
          by_cases hlt : i < k
          · rw [if_pos hlt, if_pos (by omega)]
          · rw [if_neg hlt, if_neg (by omega)])
  exact ⟨H', e, h1, h2, fun i hi => by rw [h3, if_pos hi]⟩

/-- a loop rewriting entry `j` of two distinct blocks in turn `j` -/
theorem blockLoop2 {H : Heap} {a b pkt : Nat} {f g : Nat → Nat → Nat} {body : Nat → Heap → Res Heap} (hsa : (gt H a).size = pkt) (hsb : (gt H b).size = pkt)
    (hbody : ∀ j H', j < pkt → H'.size = H.size → (gt H' a).size = pkt → (gt H' b).size = pkt →
      ∃ H'', body j H' = .ok H'' ∧ H''.size = H'.size ∧ (∀ c, c ≠ a → c ≠ b → gt H'' c = gt H' c) ∧
        gt H'' a = (gt H' a).setIfInBounds j (f (gt (gt H' a) j) (gt (gt H' b) j)) ∧
        gt H'' b = (gt H' b).setIfInBounds j (g (gt (gt H' a) j) (gt (gt H' b) j))) :
    ∃ H', forN pkt H body = .ok H' ∧ H'.size = H.size ∧ (∀ c, c ≠ a → c ≠ b → gt H' c = gt H c) ∧
      (gt H' a).size = pkt ∧ (gt H' b).size = pkt ∧
      (∀ i, i < pkt → gt (gt H' a) i = f (gt (gt H a) i) (gt (gt H b) i)) ∧
      (∀ i, i < pkt → gt (gt H' b) i = g (gt (gt H a) i) (gt (gt H b) i)) := by
  obtain ⟨H', e, h0, h1, h2, h3, h4, h5⟩ := forN_inv (n := pkt) (s := H) (f := body)
    (I := fun k H' => H'.size = H.size ∧ (∀ c, c ≠ a → c ≠ b → gt H' c = gt H c) ∧
      (gt H' a).size = pkt ∧ (gt H' b).size = pkt ∧
      (∀ i, gt (gt H' a) i = if i < k then f (gt (gt H a) i) (gt (gt H b) i) else gt (gt H a) i) ∧
      (∀ i, gt (gt H' b) i = if i < k then g (gt (gt H a) i) (gt (gt H b) i) else gt (gt H b) i))
    ⟨rfl, fun _ _ _ => rfl, hsa, hsb, by simp, by simp⟩ (by
      rintro k H1 hk ⟨h0, h1, h2, h3, h4, h5⟩
      obtain ⟨H2, e2, s2, o2, a2, b2⟩ := hbody k H1 hk h0 h2 h3
      refine ⟨H2, e2, by omega, fun c c1 c2 => by rw [o2 c c1 c2, h1 c c1 c2], by rw [a2]; simp [h2],
        by rw [b2]; simp [h3], ?_, ?_⟩
      · intro i
        rw [a2, gt_set (by omega), h4, h4, h5]
        by_cases hi : i = k
        · subst hi; simp
        · rw [if_neg hi]
          by_cases hlt : i < k
          · rw [if_pos hlt, if_pos (by omega)]
          · rw [if_neg hlt, if_neg (by omega)]
      · intro i
        rw [b2, gt_set (by omega), h5, h5, h4]
        by_cases hi : i = k
        · subst hi; simp
        · rw [if_neg hi]
          by_cases hlt : i < k
          · rw [if_pos hlt, if_pos (by omega)]
          · rw [if_neg hlt, if_neg (by omega)])
  exact ⟨H', e, h0, h1, h2, h3, fun i hi => by rw [h4, if_pos hi], fun i hi => by rw [h5, if_pos hi]⟩

theorem Heap.cpy_spec {H : Heap} {d s pkt : Nat} (hd : d < H.size) (hs : s < H.size) (h1 : (gt H d).size = pkt)
    (h2 : (gt H s).size = pkt) : ∃ H', Heap.cpy H d s pkt = .ok H' ∧ OnlyAt d H H' ∧ gt H' d = gt H s := by
  obtain ⟨H', e, o, sz, g⟩ := blockLoop (H := H) (d := d) (f := fun j => gt (gt H s) j) (body := fun j H => do
      let x ← Heap.rdEl H s j
      Heap.wrEl H d j x) hd h1 (by
      intro j H1 hj ho hsz hg
      have : gt (gt H1 s) j = gt (gt H s) j := by
        by_cases hsd : s = d
        · subst hsd; rw [hg, if_neg (by omega)]
        · rw [ho.2 s hsd]
      have hss : (gt H1 s).size = pkt := by
        by_cases hsd : s = d
        · subst hsd; exact hsz
        · rw [ho.2 s hsd]; exact h2
      rw [Heap.rdEl_ok (by rw [ho.1]; exact hs) (by omega), ok_bind, this])
  exact ⟨H', e, o, gt_ext (by omega) (fun i hi => g i (by omega))⟩

theorem Heap.fill_spec {H : Heap} {d pkt x : Nat} (hd : d < H.size) (h1 : (gt H d).size = pkt) :
    ∃ H', Heap.fill H d pkt x = .ok H' ∧ OnlyAt d H H' ∧ gt H' d = Array.replicate pkt x := by
  obtain ⟨H', e, o, sz, g⟩ := blockLoop (H := H) (d := d) (f := fun _ => x)
    (body := fun j H => Heap.wrEl H d j x) hd h1 (fun _ _ _ _ _ _ => rfl)
  exact ⟨H', e, o, gt_ext (by simp [sz]) (fun i hi => by rw [g i (by omega), gt_replicate (by omega)])⟩

/-! ### views -/

/-- the blocks at the pointers `mem` hold the packets `a` of `pkt` words -/
structure View (pkt : Nat) (H : Heap) (mem : Array Nat) (a : Array (Array Nat)) : Prop where
  len : a.size = mem.size
  lt : ∀ i, i < mem.size → gt mem i < H.size
  blk : ∀ i, i < mem.size → gt H (gt mem i) = gt a i
  sz : ∀ i, i < mem.size → (gt a i).size = pkt

/-- the pointers are distinct -/
def InjPtr (mem : Array Nat) : Prop := ∀ i j, i < mem.size → j < mem.size → gt mem i = gt mem j → i = j

/-- no common pointer -/
def Disj (m1 m2 : Array Nat) : Prop := ∀ i j, i < m1.size → j < m2.size → gt m1 i ≠ gt m2 j

theorem Disj.symm {m1 m2 : Array Nat} (h : Disj m1 m2) : Disj m2 m1 := fun i j hi hj e => h j i hj hi e.symm

/-- only blocks of `mem` change -/
structure Frame (mem : Array Nat) (H H' : Heap) : Prop where
  size : H'.size = H.size
  out : ∀ b, (∀ i, i < mem.size → gt mem i ≠ b) → gt H' b = gt H b

theorem Frame.refl (mem : Array Nat) (H : Heap) : Frame mem H H := ⟨rfl, fun _ _ => rfl⟩

theorem Frame.trans {mem : Array Nat} {H1 H2 H3 : Heap} (h : Frame mem H1 H2) (h' : Frame mem H2 H3) :
    Frame mem H1 H3 := ⟨h'.size.trans h.size, fun b hb => (h'.out b hb).trans (h.out b hb)⟩

theorem View.frame {pkt : Nat} {H H' : Heap} {mem m2 : Array Nat} {a : Array (Array Nat)} (v : View pkt H m2 a)
    (f : Frame mem H H') (d : Disj mem m2) : View pkt H' m2 a :=
  ⟨v.len, fun i hi => by rw [f.size]; exact v.lt i hi,
    fun i hi => by rw [f.out _ (fun j hj => d j i hj hi), v.blk i hi], v.sz⟩

theorem View.unique {pkt : Nat} {H : Heap} {mem : Array Nat} {a b : Array (Array Nat)} (v : View pkt H mem a)
    (v' : View pkt H mem b) : a = b := by
  refine gt_ext (by rw [v.len, v'.len]) (fun i hi => ?_)
  rw [v.len] at hi
  rw [← v.blk i hi, v'.blk i hi]

/-- writing block `mem[i]` -/
theorem View.set {pkt : Nat} {H H' : Heap} {mem : Array Nat} {a : Array (Array Nat)} {i : Nat} {x : Array Nat}
    (v : View pkt H mem a) (hinj : InjPtr mem) (hi : i < mem.size) (ho : OnlyAt (gt mem i) H H')
    (hx : gt H' (gt mem i) = x) (hs : x.size = pkt) : View pkt H' mem (a.setIfInBounds i x) ∧ Frame mem H H' := by
  refine ⟨⟨by simp [v.len], fun j hj => by rw [ho.1]; exact v.lt j hj, fun j hj => ?_, fun j hj => ?_⟩, ho.1,
    fun b hb => ho.2 b (fun e => hb i hi e.symm)⟩
  · rw [gt_set (by rw [v.len]; exact hi)]
    by_cases hji : j = i
    · subst hji; rw [if_pos rfl, hx]
    · rw [if_neg hji, ho.2 _ (fun e => hji (hinj j i hj hi e)), v.blk j hj]
  · rw [gt_set (by rw [v.len]; exact hi)]
    by_cases hji : j = i
    · rw [if_pos hji, hs]
    · rw [if_neg hji, v.sz j hj]

/-- `opH` on the heap does to the blocks of `mem` what `op` does to an array of
packets; it may read the blocks of `inp`, which hold `input` -/
def Ref (pkt : Nat) (mem inp : Array Nat) (input : Array (Array Nat)) (op : Array (Array Nat) → Res (Array (Array Nat)))
    (opH : Heap → Res Heap) : Prop :=
  ∀ H a, View pkt H mem a → View pkt H inp input → ∀ a', op a = .ok a' →
    ∃ H', opH H = .ok H' ∧ View pkt H' mem a' ∧ Frame mem H H'

section
variable {pkt : Nat} {mem inp : Array Nat} {input : Array (Array Nat)} (hd : Disj mem inp)

theorem Ref.idle : Ref pkt mem inp input (fun a => Except.ok a) (fun H => Except.ok H) := by
  intro H a v _ a' e
  cases e
  exact ⟨H, rfl, v, Frame.refl _ _⟩

include hd in
theorem Ref.seq {op1 op2 : Array (Array Nat) → Res (Array (Array Nat))} {h1 h2 : Heap → Res Heap}
    (r1 : Ref pkt mem inp input op1 h1) (r2 : Ref pkt mem inp input op2 h2) :
    Ref pkt mem inp input (fun a => op1 a >>= op2) (fun H => h1 H >>= h2) := by
  intro H a v vi a' e
  cases h : op1 a with
  | error x => simp [h] at e
  | ok a1 =>
    simp only [h, ok_bind] at e
    obtain ⟨H1, e1, v1, f1⟩ := r1 H a v vi a1 h
    obtain ⟨H2, e2, v2, f2⟩ := r2 H1 a1 v1 (vi.frame f1 hd) a' e
    exact ⟨H2, by simp only [e1, ok_bind, e2], v2, f1.trans f2⟩

include hd in
theorem Ref.forN {n : Nat} {op : Nat → Array (Array Nat) → Res (Array (Array Nat))} {opH : Nat → Heap → Res Heap}
    (h : ∀ i, i < n → Ref pkt mem inp input (op i) (opH i)) :
    Ref pkt mem inp input (fun a => Quad.forN n a op) (fun H => Quad.forN n H opH) := by
  induction n with
  | zero => exact Ref.idle
  | succ n ih => exact Ref.seq hd (ih (fun i hi => h i (by omega))) (h n (by omega))

include hd in
theorem Ref.forStep {s e st : Nat} {op : Nat → Array (Array Nat) → Res (Array (Array Nat))} {opH : Nat → Heap → Res Heap}
    (h : ∀ i, Ref pkt mem inp input (op i) (opH i)) :
    Ref pkt mem inp input (fun a => Quad.forStep s e st a op) (fun H => Quad.forStep s e st H opH) :=
  Ref.forN hd (fun i _ => h (s + i * st))

/-- the same computation of a value first -/
theorem Ref.val {α : Type} {x : Res α} {op : α → Array (Array Nat) → Res (Array (Array Nat))} {opH : α → Heap → Res Heap}
    (h : ∀ y, Ref pkt mem inp input (op y) (opH y)) :
    Ref pkt mem inp input (fun a => x >>= fun y => op y a) (fun H => x >>= fun y => opH y H) := by
  intro H a v vi a' e
  cases hx : x with
  | error z => simp [hx] at e
  | ok y => simp only [hx, ok_bind] at e ⊢; exact h y H a v vi a' e

variable (hinj : InjPtr mem)

theorem rd_view {H : Heap} {a : Array (Array Nat)} (v : View pkt H mem a) {i : Nat} {x : Array Nat}
    (e : rd a i = .ok x) : i < mem.size ∧ rd mem i = .ok (gt mem i) ∧ gt mem i < H.size ∧ gt H (gt mem i) = x ∧
      x.size = pkt ∧ x = gt a i := by
  have hi : i < a.size := by
    by_contra h
    simp [rd, h] at e
  rw [rd_gt hi] at e
  cases e
  rw [v.len] at hi
  exact ⟨hi, rd_gt hi, v.lt i hi, v.blk i hi, v.sz i hi, rfl⟩

theorem wr_some {α : Type} {a a' : Array α} {i : Nat} {x : α} (e : wr a i x = .ok a') :
    i < a.size ∧ a' = a.setIfInBounds i x := by
  unfold wr at e
  by_cases h : i < a.size
  · rw [if_pos h] at e; cases e; exact ⟨h, rfl⟩
  · rw [if_neg h] at e; cases e

include hinj in
/-- writing one whole packet -/
theorem Ref.put {i : Nat} {x : Array Nat} {f : Nat → Heap → Res Heap} (hx : x.size = pkt)
    (hf : ∀ H d, d < H.size → (gt H d).size = pkt → View pkt H inp input → ∃ H', f d H = .ok H' ∧ OnlyAt d H H' ∧ gt H' d = x) :
    Ref pkt mem inp input (fun a => wr a i x) (fun H => rd mem i >>= fun d => f d H) := by
  intro H a v vi a' e
  obtain ⟨hi, rfl⟩ := wr_some e
  rw [v.len] at hi
  obtain ⟨H', e', o, g⟩ := hf H (gt mem i) (v.lt i hi) (by rw [v.blk i hi]; exact v.sz i hi) vi
  obtain ⟨v', f'⟩ := v.set hinj hi o g hx
  exact ⟨H', by simp only [rd_gt hi, ok_bind, e'], v', f'⟩

include hinj hd in
theorem Ref.fillRange {start len : Nat} {x : Array Nat} {f : Nat → Heap → Res Heap} (hx : x.size = pkt)
    (hf : ∀ H d, d < H.size → (gt H d).size = pkt → View pkt H inp input → ∃ H', f d H = .ok H' ∧ OnlyAt d H H' ∧ gt H' d = x) :
    Ref pkt mem inp input (fun a => Radix2.fillRange a start len x) (fun H => Radix2.fillRangeH mem start len f H) :=
  Ref.forN hd (fun _ _ => Ref.put hinj hx hf)

/-- reading one packet of the input -/
theorem Ref.get {i : Nat} {op : Array Nat → Array (Array Nat) → Res (Array (Array Nat))} {opH : Nat → Heap → Res Heap}
    (h : i < inp.size → Ref pkt mem inp input (op (gt input i)) (opH (gt inp i))) :
    Ref pkt mem inp input (fun a => rd input i >>= fun x => op x a) (fun H => rd inp i >>= fun s => opH s H) := by
  intro H a v vi a' e
  by_cases hi : i < input.size
  · simp only [rd_gt hi, ok_bind] at e
    have hi' : i < inp.size := by rw [← vi.len]; exact hi
    simp only [rd_gt hi', ok_bind]
    exact h hi' H a v vi a' e
  · simp [rd, hi] at e

theorem cpy_ref (i : Nat) (hi : i < inp.size) : ∀ (H : Heap) (d : Nat), d < H.size → (gt H d).size = pkt → View pkt H inp input →
    ∃ H', Heap.cpy H d (gt inp i) pkt = .ok H' ∧ OnlyAt d H H' ∧ gt H' d = gt input i := by
  intro H d h1 h2 vi
  obtain ⟨H', e, o, g⟩ := Heap.cpy_spec h1 (vi.lt i hi) h2 (by rw [vi.blk i hi]; exact vi.sz i hi)
  exact ⟨H', e, o, by rw [g, vi.blk i hi]⟩

variable (R : Radix2)

include hinj hd in
theorem Ref.scatter {g : Nat} (hs : input.size = inp.size) (hz : ∀ i, i < input.size → (gt input i).size = pkt) :
    Ref pkt mem inp input (fun a => R.scatter (pktCell R.F pkt) g a input) (fun H => R.scatterH pkt mem g inp H) := by
  unfold Radix2.scatter Radix2.scatterH
  rw [hs]
  refine Ref.seq hd (Ref.forN hd (fun i _ => Ref.get (fun hi => Ref.val (fun r => ?_))))
    (Ref.forStep hd (fun i => Ref.val (fun r => ?_)))
  · exact Ref.fillRange hd hinj (hz i (by omega)) (cpy_ref i hi)
  · exact Ref.fillRange hd hinj (by simp [pktCell]) (fun H d h1 h2 _ => by simpa [pktCell] using Heap.fill_spec h1 h2)

/-- the two blocks of a pair -/
theorem pairWrite {H H' : Heap} {a : Array (Array Nat)} {i k : Nat} {x y : Array Nat} (v : View pkt H mem a) (hinj : InjPtr mem)
    (hi : i < mem.size) (hk : k < mem.size) (hik : i ≠ k) (hs : H'.size = H.size)
    (ho : ∀ c, c ≠ gt mem i → c ≠ gt mem k → gt H' c = gt H c) (hx : gt H' (gt mem i) = x) (hy : gt H' (gt mem k) = y)
    (sx : x.size = pkt) (sy : y.size = pkt) :
    View pkt H' mem ((a.setIfInBounds i x).setIfInBounds k y) ∧ Frame mem H H' := by
  refine ⟨⟨by simp [v.len], fun j hj => by rw [hs]; exact v.lt j hj, fun j hj => ?_, fun j hj => ?_⟩, hs,
    fun b hb => ho b (fun e => hb i hi e.symm) (fun e => hb k hk e.symm)⟩
  · rw [gt_set (by simp [v.len, hk]), gt_set (by rw [v.len]; exact hi)]
    by_cases hjk : j = k
    · subst hjk; rw [if_pos rfl, hy]
    · rw [if_neg hjk]
      by_cases hji : j = i
      · subst hji; rw [if_pos rfl, hx]
      · rw [if_neg hji, ho _ (fun e => hji (hinj j i hj hi e)) (fun e => hjk (hinj j k hj hk e)), v.blk j hj]
  · rw [gt_set (by simp [v.len, hk]), gt_set (by rw [v.len]; exact hi)]
    by_cases hjk : j = k
    · rw [if_pos hjk, sy]
    · rw [if_neg hjk]
      by_cases hji : j = i
      · rw [if_pos hji, sx]
      · rw [if_neg hji, v.sz j hj]

theorem bind_ok {α β : Type} {x : Res α} {f : α → Res β} {b : β} (h : (x >>= f) = .ok b) : ∃ a, x = .ok a ∧ f a = .ok b := by
  cases x with
  | error e => cases h
  | ok a => exact ⟨a, rfl, h⟩

include hinj in
theorem Ref.ctPair {r m i : Nat} (hm : 0 < m) :
    Ref pkt mem inp input (fun a => Radix2.ctPair (pktCell R.F pkt) r m i a) (fun H => R.ctPairH pkt mem r m i H) := by
  intro H a v _ a' e
  unfold Radix2.ctPair at e
  obtain ⟨x, ex, e⟩ := bind_ok e
  obtain ⟨y, ey, e⟩ := bind_ok e
  obtain ⟨⟨x', y'⟩, exy, e⟩ := bind_ok e
  obtain ⟨a1, e1, e⟩ := bind_ok e
  obtain ⟨i1, r1, l1, g1, s1, _⟩ := rd_view v ex
  obtain ⟨i2, r2, l2, g2, s2, _⟩ := rd_view v ey
  obtain ⟨_, rfl⟩ := wr_some e1
  obtain ⟨_, rfl⟩ := wr_some e
  have hne : gt mem i ≠ gt mem (i + m) := fun h => by have := hinj i (i + m) i1 i2 h; omega
  obtain ⟨u, w, e2, su, sw, hu, hw⟩ := pktLoop2 (f := fun x y => R.F.add x (R.F.mul r y))
    (g := fun x y => R.F.sub x (R.F.mul r y)) (body := fun j (s : Array Nat × Array Nat) => do
      let bj ← rd s.2 j
      let aj ← rd s.1 j
      let x := R.F.mul r bj
      let b' ← wr s.2 j (R.F.sub aj x)
      let a' ← wr s.1 j (R.F.add aj x)
      pure (a', b')) s1 s2 (by
        intro j s hj1 hj2
        simp only [rd_gt hj1, rd_gt hj2, wr_ok hj1, wr_ok hj2, ok_bind]; rfl)
  have : Except.ok (x', y') = (Except.ok (u, w) : Res _) := exy.symm.trans e2
  obtain ⟨rfl, rfl⟩ : x' = u ∧ y' = w := by cases this; exact ⟨rfl, rfl⟩
  obtain ⟨H', eH, hs, ho, ha, hb, h4, h5⟩ := blockLoop2 (H := H) (a := gt mem i) (b := gt mem (i + m))
    (f := fun x y => R.F.add x (R.F.mul r y)) (g := fun x y => R.F.sub x (R.F.mul r y))
    (body := fun j H => do
      let bj ← Heap.rdEl H (gt mem (i + m)) j
      let aj ← Heap.rdEl H (gt mem i) j
      let x := R.F.mul r bj
      let H ← Heap.wrEl H (gt mem (i + m)) j (R.F.sub aj x)
      Heap.wrEl H (gt mem i) j (R.F.add aj x)) (by rw [g1, s1]) (by rw [g2, s2]) (by
      intro j H1 hj hs1 ha hb
      have q1 : gt mem i < H1.size := by omega
      have q2 : gt mem (i + m) < H1.size := by omega
      refine ⟨_, by
        rw [Heap.rdEl_ok q2 (by omega), ok_bind, Heap.rdEl_ok q1 (by omega), ok_bind]
        simp only
        rw [Heap.wrEl_ok q2 (by omega), ok_bind, Heap.wrEl_ok (by simpa using q1) (by rw [gt_set q2, if_neg hne]; omega)],
        by simp, ?_, ?_, ?_⟩
      · intro c c1 c2
        rw [gt_set (by simpa using q1), if_neg c1, gt_set q2, if_neg c2]
      · rw [gt_set (by simpa using q1), if_pos rfl, gt_set q2, if_neg hne]
      · rw [gt_set (by simpa using q1), if_neg (Ne.symm hne), gt_set q2, if_pos rfl])
  have hx : gt H' (gt mem i) = x' := gt_ext (by omega) (fun t ht => by
    rw [h4 t (by omega), hu t (by omega), g1, g2])
  have hy : gt H' (gt mem (i + m)) = y' := gt_ext (by omega) (fun t ht => by
    rw [h5 t (by omega), hw t (by omega), g1, g2])
  obtain ⟨v', f'⟩ := pairWrite v hinj i1 i2 (by omega) hs ho hx hy su sw
  exact ⟨H', by beta_reduce; unfold Radix2.ctPairH; rw [r1, ok_bind, r2, ok_bind]; exact eH, v', f'⟩

include hinj in
theorem Ref.gsPair {r m i : Nat} (hm : 0 < m) :
    Ref pkt mem inp input (fun a => Radix2.gsPair (pktCell R.F pkt) r m i a) (fun H => R.gsPairH pkt mem r m i H) := by
  intro H a v _ a' e
  unfold Radix2.gsPair at e
  obtain ⟨x, ex, e⟩ := bind_ok e
  obtain ⟨y, ey, e⟩ := bind_ok e
  obtain ⟨⟨x', y'⟩, exy, e⟩ := bind_ok e
  obtain ⟨a1, e1, e⟩ := bind_ok e
  obtain ⟨i1, r1, l1, g1, s1, _⟩ := rd_view v ex
  obtain ⟨i2, r2, l2, g2, s2, _⟩ := rd_view v ey
  obtain ⟨_, rfl⟩ := wr_some e1
  obtain ⟨_, rfl⟩ := wr_some e
  have hne : gt mem i ≠ gt mem (i + m) := fun h => by have := hinj i (i + m) i1 i2 h; omega
  obtain ⟨u, w, e2, su, sw, hu, hw⟩ := pktLoop2 (f := fun x y => R.F.add x y)
    (g := fun x y => R.F.mul r (R.F.sub x y)) (body := fun j (s : Array Nat × Array Nat) => do
      let aj ← rd s.1 j
      let bj ← rd s.2 j
      let x := R.F.sub aj bj
      let a' ← wr s.1 j (R.F.add aj bj)
      let b' ← wr s.2 j (R.F.mul r x)
      pure (a', b')) s1 s2 (by
        intro j s hj1 hj2
        simp only [rd_gt hj1, rd_gt hj2, wr_ok hj1, wr_ok hj2, ok_bind]; rfl)
  have : Except.ok (x', y') = (Except.ok (u, w) : Res _) := exy.symm.trans e2
  obtain ⟨rfl, rfl⟩ : x' = u ∧ y' = w := by cases this; exact ⟨rfl, rfl⟩
  obtain ⟨H', eH, hs, ho, ha, hb, h4, h5⟩ := blockLoop2 (H := H) (a := gt mem i) (b := gt mem (i + m))
    (f := fun x y => R.F.add x y) (g := fun x y => R.F.mul r (R.F.sub x y))
    (body := fun j H => do
      let aj ← Heap.rdEl H (gt mem i) j
      let bj ← Heap.rdEl H (gt mem (i + m)) j
      let x := R.F.sub aj bj
      let H ← Heap.wrEl H (gt mem i) j (R.F.add aj bj)
      Heap.wrEl H (gt mem (i + m)) j (R.F.mul r x)) (by rw [g1, s1]) (by rw [g2, s2]) (by
      intro j H1 hj hs1 ha hb
      have q1 : gt mem i < H1.size := by omega
      have q2 : gt mem (i + m) < H1.size := by omega
      refine ⟨_, by
        rw [Heap.rdEl_ok q1 (by omega), ok_bind, Heap.rdEl_ok q2 (by omega), ok_bind]
        simp only
        rw [Heap.wrEl_ok q1 (by omega), ok_bind, Heap.wrEl_ok (by simpa using q2) (by rw [gt_set q1, if_neg (Ne.symm hne)]; omega)],
        by simp, ?_, ?_, ?_⟩
      · intro c c1 c2
        rw [gt_set (by simpa using q2), if_neg c2, gt_set q1, if_neg c1]
      · rw [gt_set (by simpa using q2), if_neg hne, gt_set q1, if_pos rfl]
      · rw [gt_set (by simpa using q2), if_pos rfl, gt_set q1, if_neg (Ne.symm hne)])
  have hx : gt H' (gt mem i) = x' := gt_ext (by omega) (fun t ht => by
    rw [h4 t (by omega), hu t (by omega), g1, g2])
  have hy : gt H' (gt mem (i + m)) = y' := gt_ext (by omega) (fun t ht => by
    rw [h5 t (by omega), hw t (by omega), g1, g2])
  obtain ⟨v', f'⟩ := pairWrite v hinj i1 i2 (by omega) hs ho hx hy su sw
  exact ⟨H', by beta_reduce; unfold Radix2.gsPairH; rw [r1, ok_bind, r2, ok_bind]; exact eH, v', f'⟩

include hinj in
theorem Ref.gsSimplePair {r m i : Nat} (hm : 0 < m) :
    Ref pkt mem inp input (fun a => Radix2.gsSimplePair (pktCell R.F pkt) r m i a) (fun H => R.gsSimplePairH pkt mem r m i H) := by
  intro H a v _ a' e
  unfold Radix2.gsSimplePair at e
  obtain ⟨x, ex, e⟩ := bind_ok e
  obtain ⟨y, ey, e⟩ := bind_ok e
  obtain ⟨y', exy, e⟩ := bind_ok e
  obtain ⟨i1, r1, l1, g1, s1, _⟩ := rd_view v ex
  obtain ⟨i2, r2, l2, g2, s2, _⟩ := rd_view v ey
  obtain ⟨_, rfl⟩ := wr_some e
  have hne : gt mem i ≠ gt mem (i + m) := fun h => by have := hinj i (i + m) i1 i2 h; omega
  obtain ⟨u, e2, su, hu⟩ := pktLoop1 (f := fun j _ => R.F.mul r (gt x j)) (body := fun j b => do
        let aj ← rd x j
        wr b j (R.F.mul r aj)) s2 (by
          intro j s hj1 hj2
          rw [rd_gt (by omega), ok_bind, wr_ok hj2])
  have : Except.ok y' = (Except.ok u : Res _) := exy.symm.trans e2
  obtain rfl : y' = u := by cases this; rfl
  obtain ⟨H', eH, ho, hb, h4⟩ := blockLoop (H := H) (d := gt mem (i + m)) (f := fun j => R.F.mul r (gt x j))
    (body := fun j H => do
      let aj ← Heap.rdEl H (gt mem i) j
      Heap.wrEl H (gt mem (i + m)) j (R.F.mul r aj)) l2 (by rw [g2, s2]) (by
      intro j H1 hj ho hs1 hg
      have : gt H1 (gt mem i) = x := by rw [ho.2 _ hne, g1]
      rw [Heap.rdEl_ok (by rw [ho.1]; exact l1) (by rw [this]; omega), ok_bind, this])
  have hy : gt H' (gt mem (i + m)) = y' := gt_ext (by omega) (fun t ht => by
    rw [h4 t (by omega), hu t (by omega)])
  obtain ⟨v', f'⟩ := v.set hinj i2 ho hy su
  exact ⟨H', by beta_reduce; unfold Radix2.gsSimplePairH; rw [r1, ok_bind, r2, ok_bind]; exact eH, v', f'⟩

include hinj hd in
theorem Ref.ctStep {r start m step : Nat} (hm : 0 < m) :
    Ref pkt mem inp input (fun a => R.ctStep (pktCell R.F pkt) r start m step a) (fun H => R.ctStepH pkt mem r start m step H) :=
  Ref.forStep hd (fun _ => Ref.ctPair hinj R hm)

include hinj hd in
theorem Ref.ctTwoLayers {start m : Nat} (hm : 0 < m) :
    Ref pkt mem inp input (fun a => R.ctTwoLayers (pktCell R.F pkt) start m a) (fun H => R.ctTwoLayersH pkt mem start m H) :=
  Ref.val (fun _ => Ref.seq hd (Ref.ctStep hd hinj R hm) (Ref.seq hd (Ref.ctStep hd hinj R hm) (Ref.val (fun _ =>
    Ref.seq hd (Ref.ctStep hd hinj R (by omega)) (Ref.val (fun _ => Ref.ctStep hd hinj R (by omega)))))))

include hinj hd in
theorem ctTwoStagesH_ref : ∀ (fuel m : Nat) (H : Heap) (a : Array (Array Nat)), View pkt H mem a → View pkt H inp input →
    ∀ s, R.ctTwoStages (pktCell R.F pkt) fuel m a = .ok s →
    ∃ H', R.ctTwoStagesH pkt mem fuel m H = .ok (s.1, H') ∧ View pkt H' mem s.2 ∧ Frame mem H H' := by
  intro fuel
  induction fuel with
  | zero => intro m H a _ _ s e; cases e
  | succ fuel ih =>
    intro m H a v vi s e
    unfold Radix2.ctTwoStages at e
    unfold Radix2.ctTwoStagesH
    by_cases hm : m < R.n / 2
    · rw [if_pos hm] at e ⊢
      obtain ⟨a1, e1, e⟩ := bind_ok e
      obtain ⟨H1, e2, v1, f1⟩ := Ref.forN hd (fun j (hj : j < m) => Ref.ctTwoLayers hd hinj R (start := j) (m := m) (by omega)) H a v vi a1 e1
      obtain ⟨H2, e3, v2, f2⟩ := ih (4 * m) H1 a1 v1 (vi.frame f1 hd) s e
      exact ⟨H2, by simp only at e2; rw [e2, ok_bind, e3], v2, f1.trans f2⟩
    · rw [if_neg hm] at e ⊢
      cases e
      exact ⟨H, rfl, v, Frame.refl _ _⟩

include hinj hd in
theorem Ref.fft (hs : input.size = inp.size) (hz : ∀ i, i < input.size → (gt input i).size = pkt) :
    Ref pkt mem inp input (fun a => R.fftBufG (pktCell R.F pkt) a input) (fun H => R.fftH pkt mem inp H) := by
  intro H a v vi a' e
  beta_reduce at e ⊢
  unfold Radix2.fftBufG at e
  unfold Radix2.fftH
  rw [hs] at e
  obtain ⟨_, c1, e⟩ := bind_ok e
  obtain ⟨_, c2, e⟩ := bind_ok e
  obtain ⟨g, eg, e⟩ := bind_ok e
  obtain ⟨a1, e1, e⟩ := bind_ok e
  obtain ⟨⟨m, a2⟩, e2, e⟩ := bind_ok e
  obtain ⟨H1, k1, v1, f1⟩ := Ref.scatter hd hinj R hs hz H a v vi a1 e1
  obtain ⟨H2, k2, v2, f2⟩ := ctTwoStagesH_ref hd hinj R _ _ H1 a1 v1 (vi.frame f1 hd) _ e2
  simp only at k1 k2 e v2
  rw [c1, ok_bind, c2, ok_bind, eg, ok_bind, k1, ok_bind, k2, ok_bind]
  simp only
  by_cases hm : m < R.n
  · rw [if_pos hm] at e ⊢
    obtain ⟨_, c3, e⟩ := bind_ok e
    rw [c3, ok_bind]
    obtain ⟨H3, k3, v3, f3⟩ := Ref.forN hd (fun j (hj : j < m) => Ref.val (fun r =>
      Ref.ctStep hd hinj R (r := r) (start := j) (m := m) (step := R.n) (by omega))) H2 a2 v2 (vi.frame (f1.trans f2) hd) a' e
    exact ⟨H3, k3, v3, (f1.trans f2).trans f3⟩
  · rw [if_neg hm] at e ⊢
    cases e
    exact ⟨H2, rfl, v2, f1.trans f2⟩

include hinj hd in
theorem Ref.gsStage {m : Nat} :
    Ref pkt mem inp input (fun a => R.gsStage (pktCell R.F pkt) m a) (fun H => R.gsStageH pkt mem m H) :=
  Ref.forN hd (fun _ hj => Ref.val (fun _ => Ref.forStep hd (fun _ => Ref.gsPair hinj R (by omega))))

include hinj hd in
theorem Ref.gsStages : ∀ (fuel m : Nat),
    Ref pkt mem inp input (fun a => R.gsStages (pktCell R.F pkt) fuel m a) (fun H => R.gsStagesH pkt mem fuel m H) := by
  intro fuel
  induction fuel with
  | zero => intro m H a _ _ a' e; cases e
  | succ fuel ih =>
    intro m
    unfold Radix2.gsStages Radix2.gsStagesH
    by_cases hm : m ≥ 1
    · simp only [if_pos hm]
      exact Ref.seq hd (Ref.gsStage hd hinj R) (ih _)
    · simp only [if_neg hm]
      exact Ref.idle

include hinj hd in
theorem gsSimpleStagesH_ref (len : Nat) : ∀ (fuel m : Nat) (H : Heap) (a : Array (Array Nat)), View pkt H mem a → View pkt H inp input →
    ∀ s, R.gsSimpleStages (pktCell R.F pkt) len fuel m a = .ok s →
    ∃ H', R.gsSimpleStagesH pkt mem len fuel m H = .ok (s.1, H') ∧ View pkt H' mem s.2 ∧ Frame mem H H' := by
  intro fuel
  induction fuel with
  | zero => intro m H a _ _ s e; cases e
  | succ fuel ih =>
    intro m H a v vi s e
    unfold Radix2.gsSimpleStages at e
    unfold Radix2.gsSimpleStagesH
    by_cases hm : m ≥ len
    · rw [if_pos hm] at e ⊢
      obtain ⟨a1, e1, e⟩ := bind_ok e
      obtain ⟨H1, e2, v1, f1⟩ := Ref.forN hd (fun j (hj : j < m) => Ref.val (fun r => Ref.forStep hd (fun i =>
        Ref.gsSimplePair hinj R (r := r) (m := m) (i := i) (by omega)))) H a v vi a1 e1
      obtain ⟨H2, e3, v2, f2⟩ := ih (m / 2) H1 a1 v1 (vi.frame f1 hd) s e
      exact ⟨H2, by simp only at e2; simp only; rw [e2, ok_bind, e3], v2, f1.trans f2⟩
    · rw [if_neg hm] at e ⊢
      cases e
      exact ⟨H, rfl, v, Frame.refl _ _⟩

include hinj hd in
theorem Ref.copyIn (hs : input.size = inp.size) (hz : ∀ i, i < input.size → (gt input i).size = pkt) :
    Ref pkt mem inp input (fun a => Radix2.copyIn a input) (fun H => Radix2.copyInH pkt mem inp H) := by
  unfold Radix2.copyIn Radix2.copyInH
  rw [hs]
  exact Ref.forN hd (fun i _ => Ref.get (fun hi => Ref.put hinj (hz i (by omega)) (cpy_ref i hi)))

/-- the part of `fftInvBufG` between the two permutations -/
def Radix2.fftInvBody (R : Radix2) (C : Cell (Array Nat)) (out input : Array (Array Nat)) : Res (Array (Array Nat)) := do
  let out ← Radix2.copyIn out input
  let (m, out) ← (if input.size < R.n then do
      let p2 ← Arith.ceil2 32 input.size
      let out ← Quad.forStep input.size p2 1 out (fun i out => wr out i C.zero)
      R.gsSimpleStages C input.size (R.n + 1) (R.n / 2) out
    else pure (R.n / 2, out))
  R.gsStages C (R.n + 1) m out

theorem fftInvBufG_eq (R : Radix2) (C : Cell (Array Nat)) (out input : Array (Array Nat)) :
    R.fftInvBufG C out input = (do
      let out ← R.bit_rev_permute out
      let out ← R.fftInvBody C out input
      R.bit_rev_permute out) := by
  unfold Radix2.fftInvBufG Radix2.fftInvBody
  simp only [bind_assoc]

include hinj hd in
theorem Ref.fftInvBody (hs : input.size = inp.size) (hz : ∀ i, i < input.size → (gt input i).size = pkt) :
    Ref pkt mem inp input (fun a => R.fftInvBody (pktCell R.F pkt) a input) (fun H => R.fftInvBodyH pkt mem inp H) := by
  intro H a v vi a' e
  beta_reduce at e ⊢
  unfold Radix2.fftInvBody at e
  unfold Radix2.fftInvBodyH
  obtain ⟨a1, e1, e⟩ := bind_ok e
  obtain ⟨H1, k1, v1, f1⟩ := Ref.copyIn hd hinj hs hz H a v vi a1 e1
  simp only at k1
  rw [k1, ok_bind]
  rw [hs] at e
  obtain ⟨⟨m, a2⟩, e2, e⟩ := bind_ok e
  by_cases hl : inp.size < R.n
  · rw [if_pos hl] at e2 ⊢
    obtain ⟨p2, ep, e2⟩ := bind_ok e2
    obtain ⟨a3, e3, e2⟩ := bind_ok e2
    obtain ⟨H2, k2, v2, f2⟩ := Ref.forStep hd (fun i => Ref.put hinj (i := i) (f := fun d H => Heap.fill H d pkt 0)
      (show (pktCell R.F pkt).zero.size = pkt by simp [pktCell])
      (fun H d h1 h2 _ => by simpa [pktCell] using Heap.fill_spec h1 h2)) H1 a1 v1 (vi.frame f1 hd) a3 e3
    obtain ⟨H3, k3, v3, f3⟩ := gsSimpleStagesH_ref hd hinj R _ _ _ H2 a3 v2 (vi.frame (f1.trans f2) hd) _ e2
    obtain ⟨H4, k4, v4, f4⟩ := Ref.gsStages hd hinj R _ _ H3 a2 v3 (vi.frame ((f1.trans f2).trans f3) hd) a' e
    refine ⟨H4, ?_, v4, ((f1.trans f2).trans f3).trans f4⟩
    simp only at k2 k3 k4
    rw [ep, ok_bind, k2, ok_bind, k3, ok_bind]
    exact k4
  · rw [if_neg hl] at e2 ⊢
    cases e2
    obtain ⟨H4, k4, v4, f4⟩ := Ref.gsStages hd hinj R _ _ H1 a1 v1 (vi.frame f1 hd) a' e
    exact ⟨H4, k4, v4, f1.trans f4⟩

end

/-! ### permuting pointers -/

theorem View.swap {pkt : Nat} {H : Heap} {mem : Array Nat} {a a' : Array (Array Nat)} (v : View pkt H mem a) {i j : Nat}
    (e : Radix2.swap a i j = .ok a') : ∃ mem', Radix2.swap mem i j = .ok mem' ∧ View pkt H mem' a' ∧ mem'.size = mem.size := by
  have hi : i < a.size := by
    by_contra h; unfold Radix2.swap at e; simp [rd, h] at e
  have hj : j < a.size := by
    by_contra h; unfold Radix2.swap at e; rw [rd_gt hi] at e; simp [rd, h] at e
  obtain ⟨b, eb, sb, hb⟩ := swap_spec hi hj
  rw [eb] at e; cases e
  rw [v.len] at hi hj
  obtain ⟨m, em, sm, hm⟩ := swap_spec hi hj
  refine ⟨m, em, ⟨by rw [sb, sm, v.len], ?_, ?_, ?_⟩, sm⟩
  · intro t ht
    rw [hm]
    split
    · exact v.lt _ hj
    · split
      · exact v.lt _ hi
      · exact v.lt _ (by omega)
  · intro t ht
    rw [hm, hb]
    split
    · exact v.blk _ hj
    · split
      · exact v.blk _ hi
      · exact v.blk _ (by omega)
  · intro t ht
    rw [hb]
    split
    · exact v.sz _ hj
    · split
      · exact v.sz _ hi
      · exact v.sz _ (by omega)

theorem View.bit_rev {pkt : Nat} {H : Heap} {mem : Array Nat} {a a' : Array (Array Nat)} (R : Radix2) (v : View pkt H mem a)
    (e : R.bit_rev_permute a = .ok a') : ∃ mem', R.bit_rev_permute mem = .ok mem' ∧ View pkt H mem' a' ∧ mem'.size = mem.size := by
  unfold Radix2.bit_rev_permute at e ⊢
  generalize R.n = n at e
  induction n generalizing a' with
  | zero => cases e; exact ⟨mem, rfl, v, rfl⟩
  | succ n ih =>
    obtain ⟨a1, e1, e⟩ := bind_ok (x := forN n a _) e
    obtain ⟨m1, k1, v1, s1⟩ := ih e1
    obtain ⟨r, er, e⟩ := bind_ok e
    by_cases hr : r < n
    · rw [if_pos hr] at e
      obtain ⟨m2, k2, v2, s2⟩ := v1.swap e
      exact ⟨m2, by simp only [forN]; rw [k1, ok_bind, er, ok_bind, if_pos hr, k2], v2, by omega⟩
    · rw [if_neg hr] at e
      cases e
      exact ⟨m1, by simp only [forN]; rw [k1, ok_bind, er, ok_bind, if_neg hr]; rfl, v1, s1⟩

section
variable {K : Type} [Field K] {R : Radix2} {S : R.F.Sim K} {L : Nat} (hG : R.Good S L)
  {pkt : Nat} {mem inp : Array Nat} {input : Array (Array Nat)} (hd : Disj mem inp) (hinj : InjPtr mem)

include hG hd hinj in
/-- `fft_inv` on buffers in memory: the output pointers are back in their order -/
theorem fftInvH_ref (hm : mem.size = 2 ^ L) {H : Heap} {a a' : Array (Array Nat)} (v : View pkt H mem a)
    (vi : View pkt H inp input) (e : R.fftInvBufG (pktCell R.F pkt) a input = .ok a') :
    ∃ H', R.fftInvH pkt mem inp H = .ok (mem, H') ∧ View pkt H' mem a' ∧ Frame mem H H' := by
  rw [fftInvBufG_eq] at e
  obtain ⟨a1, e1, e⟩ := bind_ok e
  obtain ⟨a2, e2, e⟩ := bind_ok e
  obtain ⟨m1, k1, v1, s1⟩ := v.bit_rev R e1
  obtain ⟨m1', k1', _, g1⟩ := bit_rev_permute_spec hG.n hG.revSize hG.rev mem hm
  rw [k1] at k1'; cases k1'
  have key : ∀ i, i < m1.size → ∃ j, j < mem.size ∧ gt m1 i = gt mem j := fun i hi =>
    ⟨bitrev L i, by rw [hm]; exact bitrev_lt L i, g1 i (by omega)⟩
  have hinj1 : InjPtr m1 := by
    intro i j hi hj he
    rw [g1 i (by omega), g1 j (by omega)] at he
    have := hinj _ _ (by rw [hm]; exact bitrev_lt L i) (by rw [hm]; exact bitrev_lt L j) he
    rw [← bitrev_bitrev L i (by omega), this, bitrev_bitrev L j (by omega)]
  have hd1 : Disj m1 inp := by
    intro i j hi hj
    obtain ⟨t, ht, he⟩ := key i hi
    rw [he]; exact hd t j ht hj
  obtain ⟨H', k2, v2, f2⟩ := Ref.fftInvBody hd1 hinj1 R vi.len (fun i hi => vi.sz i (by rw [← vi.len]; exact hi)) H a1 v1 vi a2 e2
  obtain ⟨m3, k3, v3, s3⟩ := v2.bit_rev R e
  obtain ⟨m3', k3', _, g3⟩ := bit_rev_permute_spec hG.n hG.revSize hG.rev m1 (by omega)
  rw [k3] at k3'; cases k3'
  have : m3 = mem := gt_ext (by omega) (fun i hi => by
    rw [g3 i (by omega), g1 _ (bitrev_lt L i), bitrev_bitrev L i (by omega)])
  subst this
  refine ⟨H', ?_, v3, f2.size, fun b hb => f2.out b (fun i hi => ?_)⟩
  · unfold Radix2.fftInvH
    simp only at k2
    rw [k1, ok_bind, k2, ok_bind, k3, ok_bind]
    rfl
  · obtain ⟨t, ht, he⟩ := key i hi
    rw [he]; exact hb t ht

end
end Quad
