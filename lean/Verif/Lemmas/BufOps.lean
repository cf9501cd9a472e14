import Verif.Lemmas.Buffers
import Verif.Model.FecBuf
import Verif.Lemmas.FecDec

/-!
Field operations and transforms on buffers in memory, over a field simulation.
-/

namespace Quad
open Finset

/-- element `c` of block `p` -/
def el (H : Heap) (p c : Nat) : Nat := gt (gt H p) c

/-- the pointers are blocks of `pkt` words -/
def Okb (pkt : Nat) (H : Heap) (mem : Array Nat) : Prop :=
  ∀ i, i < mem.size → gt mem i < H.size ∧ (gt H (gt mem i)).size = pkt

/-- every pointer of `m1` is one of `m2` -/
def SubPtr (m1 m2 : Array Nat) : Prop := ∀ i, i < m1.size → ∃ j, j < m2.size ∧ gt m1 i = gt m2 j

theorem gt_map {α β : Type} [Inhabited α] [Inhabited β] {a : Array α} {f : α → β} {i : Nat} (h : i < a.size) :
    gt (a.map f) i = f (gt a i) := by
  unfold gt; simp [Array.getD, h]

theorem Okb.view {pkt : Nat} {H : Heap} {mem : Array Nat} (h : Okb pkt H mem) : View pkt H mem (mem.map (gt H)) :=
  ⟨by simp, fun i hi => (h i hi).1, fun i hi => by rw [gt_map hi], fun i hi => by rw [gt_map hi]; exact (h i hi).2⟩

theorem View.okb {pkt : Nat} {H : Heap} {mem : Array Nat} {a : Array (Array Nat)} (v : View pkt H mem a) : Okb pkt H mem :=
  fun i hi => ⟨v.lt i hi, by rw [v.blk i hi]; exact v.sz i hi⟩

theorem View.el {pkt : Nat} {H : Heap} {mem : Array Nat} {a : Array (Array Nat)} (v : View pkt H mem a) {i : Nat}
    (hi : i < mem.size) (c : Nat) : el H (gt mem i) c = gt (gt a i) c := by
  unfold Quad.el; rw [v.blk i hi]

theorem Frame.mono {m1 m2 : Array Nat} {H H' : Heap} (f : Frame m1 H H') (s : SubPtr m1 m2) : Frame m2 H H' :=
  ⟨f.size, fun b hb => f.out b (fun i hi e => by
    obtain ⟨j, hj, e'⟩ := s i hi
    exact hb j hj (by rw [← e', e]))⟩

theorem Okb.frame {pkt : Nat} {H H' : Heap} {m mem : Array Nat} (h : Okb pkt H mem) (f : Frame m H H') (d : Disj m mem) :
    Okb pkt H' mem := fun i hi => by
  rw [f.size, f.out _ (fun j hj => d j i hj hi)]; exact h i hi

theorem Okb.sub {pkt : Nat} {H : Heap} {m mem : Array Nat} (h : Okb pkt H mem) (s : SubPtr m mem) : Okb pkt H m :=
  fun i hi => by obtain ⟨j, hj, e⟩ := s i hi; rw [e]; exact h j hj

theorem Disj.sub {m1 m2 m1' m2' : Array Nat} (h : Disj m1 m2) (s1 : SubPtr m1' m1) (s2 : SubPtr m2' m2) : Disj m1' m2' := by
  intro i j hi hj e
  obtain ⟨i', hi', e1⟩ := s1 i hi
  obtain ⟨j', hj', e2⟩ := s2 j hj
  exact h i' j' hi' hj' (by rw [← e1, e, e2])

theorem SubPtr.refl (m : Array Nat) : SubPtr m m := fun i hi => ⟨i, hi, rfl⟩

theorem SubPtr.trans {a b c : Array Nat} (h : SubPtr a b) (h' : SubPtr b c) : SubPtr a c := fun i hi => by
  obtain ⟨j, hj, e⟩ := h i hi
  obtain ⟨t, ht, e'⟩ := h' j hj
  exact ⟨t, ht, by rw [e, e']⟩

theorem gt_append {α : Type} [Inhabited α] {a b : Array α} {i : Nat} :
    gt (a ++ b) i = if i < a.size then gt a i else gt b (i - a.size) := by
  unfold gt
  by_cases h : i < a.size
  · rw [if_pos h]; simp [Array.getD, h, Array.getElem_append_left, show i < a.size + b.size by omega]
  · rw [if_neg h]
    by_cases h2 : i < a.size + b.size
    · have h3 : i - a.size < b.size := by omega
      simp [Array.getD, h2, h3, Array.getElem_append_right (Nat.not_lt.mp h)]
    · have h3 : ¬ i - a.size < b.size := by omega
      simp [Array.getD, h2, h3]

theorem gt_extract {α : Type} [Inhabited α] {a : Array α} {b e i : Nat} (h : i < e - b) (he : e ≤ a.size) :
    gt (a.extract b e) i = gt a (b + i) := by
  unfold gt
  have h1 : i < (a.extract b e).size := by simp; omega
  have h2 : b + i < a.size := by omega
  simp only [Array.getD, h1, h2, dif_pos]
  simp

theorem SubPtr.left (a b : Array Nat) : SubPtr a (a ++ b) := fun i hi =>
  ⟨i, by simp; omega, by rw [gt_append, if_pos hi]⟩

theorem SubPtr.right (a b : Array Nat) : SubPtr b (a ++ b) := fun i hi =>
  ⟨a.size + i, by simp; omega, by rw [gt_append, if_neg (by omega)]; congr 1; omega⟩

theorem SubPtr.extract {a : Array Nat} {b e : Nat} (he : e ≤ a.size) : SubPtr (a.extract b e) a := fun i hi => by
  have : i < e - b := by simpa [he] using hi
  exact ⟨b + i, by omega, gt_extract this he⟩

theorem SubPtr.append {a b c : Array Nat} (h1 : SubPtr a c) (h2 : SubPtr b c) : SubPtr (a ++ b) c := fun i hi => by
  rw [gt_append]
  by_cases h : i < a.size
  · rw [if_pos h]; exact h1 i h
  · rw [if_neg h]; exact h2 _ (by simp at hi; omega)

theorem Disj.append_left {a b c : Array Nat} (h1 : Disj a c) (h2 : Disj b c) : Disj (a ++ b) c := by
  intro i j hi hj
  rw [gt_append]
  by_cases h : i < a.size
  · rw [if_pos h]; exact h1 i j h hj
  · rw [if_neg h]; exact h2 _ j (by simp at hi; omega) hj

theorem Disj.append_right {a b c : Array Nat} (h1 : Disj c a) (h2 : Disj c b) : Disj c (a ++ b) :=
  (Disj.append_left h1.symm h2.symm).symm

theorem InjPtr.extract {a : Array Nat} {b e : Nat} (h : InjPtr a) (he : e ≤ a.size) : InjPtr (a.extract b e) := by
  intro i j hi hj hij
  have hi' : i < e - b := by simpa [he] using hi
  have hj' : j < e - b := by simpa [he] using hj
  rw [gt_extract hi' he, gt_extract hj' he] at hij
  have := h _ _ (by omega) (by omega) hij
  omega

theorem InjPtr.append {a b : Array Nat} (h1 : InjPtr a) (h2 : InjPtr b) (h : Disj a b) : InjPtr (a ++ b) := by
  intro i j hi hj hij
  rw [gt_append, gt_append] at hij
  simp only [Array.size_append] at hi hj
  by_cases h3 : i < a.size <;> by_cases h4 : j < a.size
  · rw [if_pos h3, if_pos h4] at hij; exact h1 i j h3 h4 hij
  · rw [if_pos h3, if_neg h4] at hij; exact absurd hij (h i _ h3 (by omega))
  · rw [if_neg h3, if_pos h4] at hij; exact absurd hij.symm (h j _ h4 (by omega))
  · rw [if_neg h3, if_neg h4] at hij
    have := h2 _ _ (by omega) (by omega) hij
    omega

section
variable {F : GF} {K : Type} [Field K] {S : F.Sim K}

/-- the special cases of `mul_vec_to_vecp` agree with multiplication by `c` -/
structure GF.Sim.Coef (S : F.Sim K) (c : Nat) : Prop where
  V : S.V c
  le : c ≤ F.cardM1
  one : c = 1 → S.φ c = 1
  neg : c = F.cardM1 → S.φ c = -1

theorem GF.Sim.Neg1.coef (hS : S.Neg1) {c : Nat} (h : S.V c) : S.Coef c :=
  ⟨h, hS.le h, fun e => by rw [e, ← hS.unit]; exact S.one.2, fun e => by rw [e]; exact hS.val⟩

theorem negBuf_spec {H : Heap} {d pkt : Nat} (hd : d < H.size) (h1 : (gt H d).size = pkt)
    (hV : ∀ c, c < pkt → S.V (el H d c)) :
    ∃ H', BufOps.negBuf F pkt d H = .ok H' ∧ OnlyAt d H H' ∧ (gt H' d).size = pkt ∧
      ∀ c, c < pkt → S.V (el H' d c) ∧ S.φ (el H' d c) = - S.φ (el H d c) := by
  obtain ⟨H', e, o, sz, g⟩ := blockLoop (H := H) (d := d) (f := fun j => F.sub 0 (gt (gt H d) j)) (body := fun j H => do
      let x ← Heap.rdEl H d j
      Heap.wrEl H d j (F.sub 0 x)) hd h1 (by
      intro j H1 hj ho hsz hg
      rw [Heap.rdEl_ok (by rw [ho.1]; exact hd) (by omega), ok_bind, hg, if_neg (by omega)])
  refine ⟨H', e, o, sz, fun c hc => ?_⟩
  unfold el
  rw [g c hc]
  have := S.sub S.zero.1 (hV c hc)
  rw [S.zero.2, zero_sub] at this
  exact this

theorem mulCoef_spec {H : Heap} {d s pkt coef : Nat} (hc : S.Coef coef) (hd : d < H.size) (hs : s < H.size)
    (h1 : (gt H d).size = pkt) (h2 : (gt H s).size = pkt) (hV : ∀ c, c < pkt → S.V (el H s c)) :
    ∃ H', BufOps.mulCoef F coef s d pkt H = .ok H' ∧ OnlyAt d H H' ∧ (gt H' d).size = pkt ∧
      ∀ c, c < pkt → S.V (el H' d c) ∧ S.φ (el H' d c) = S.φ coef * S.φ (el H s c) := by
  unfold BufOps.mulCoef
  by_cases c1 : coef > 1 ∧ coef < F.cardM1
  · rw [if_pos c1]
    obtain ⟨H', e, o, sz, g⟩ := blockLoop (H := H) (d := d) (f := fun j => F.mul coef (gt (gt H s) j)) (body := fun j H => do
      let x ← Heap.rdEl H s j
      Heap.wrEl H d j (F.mul coef x)) hd h1 (by
      intro j H1 hj ho hsz hg
      have : gt (gt H1 s) j = gt (gt H s) j := by
        by_cases hsd : s = d
        · subst hsd; rw [hg, if_neg (by omega)]
        · rw [ho.2 s hsd]
      have hss : (gt H1 s).size = pkt := by
        by_cases hsd : s = d
        · subst hsd; exact hsz
        · rw [ho.2 s hsd]; exact h2
      rw [Heap.rdEl_ok (by rw [ho.1]; exact hs) (by omega), ok_bind, this])
    refine ⟨H', e, o, sz, fun c hc' => ?_⟩
    unfold el; rw [g c hc']; exact S.mul hc.V (hV c hc')
  rw [if_neg c1]
  by_cases c2 : coef = 1
  · rw [if_pos c2]
    obtain ⟨H', e, o, g⟩ := Heap.cpy_spec hd hs h1 h2
    refine ⟨H', e, o, by rw [g]; exact h2, fun c hc' => ?_⟩
    unfold el
    rw [g, hc.one c2, one_mul]
    exact ⟨hV c hc', rfl⟩
  rw [if_neg c2]
  by_cases c3 : coef = 0
  · rw [if_pos c3]
    obtain ⟨H', e, o, g⟩ := Heap.fill_spec (x := 0) hd h1
    refine ⟨H', e, o, by rw [g]; simp, fun c hc' => ?_⟩
    unfold el
    rw [g, gt_replicate hc', c3, S.zero.2, zero_mul]
    exact ⟨S.zero.1, rfl⟩
  rw [if_neg c3]
  have c4 : coef = F.cardM1 := by have := hc.le; omega
  rw [if_pos c4]
  obtain ⟨H1, e1, o1, g1⟩ := Heap.cpy_spec hd hs h1 h2
  obtain ⟨H2, e2, o2, s2, g2⟩ := negBuf_spec (S := S) (H := H1) (d := d) (pkt := pkt) (by rw [o1.1]; exact hd)
    (by rw [g1]; exact h2) (fun c hc' => by unfold el; rw [g1]; exact hV c hc')
  refine ⟨H2, by rw [e1, ok_bind, e2], ⟨by rw [o2.1, o1.1], fun b hb => by rw [o2.2 b hb, o1.2 b hb]⟩, s2, fun c hc' => ?_⟩
  have := g2 c hc'
  unfold el at this ⊢
  rw [g1] at this
  rw [hc.neg c4, neg_one_mul]
  exact this

/-- a loop that rewrites block `dest[i]` in turn `i`, from blocks not yet rewritten -/
theorem rowLoop {dest : Array Nat} {pkt m : Nat} {body : Nat → Heap → Res Heap} {P : Nat → Heap → Array Nat → Prop} {H : Heap}
    (hinj : InjPtr dest) (hm : m ≤ dest.size)
    (hP : ∀ i H1 H2 x, i < m → (∀ b, (∀ j, j < i → gt dest j ≠ b) → gt H2 b = gt H1 b) → P i H2 x → P i H1 x)
    (hb : ∀ i H', i < m → H'.size = H.size → (∀ b, (∀ j, j < i → gt dest j ≠ b) → gt H' b = gt H b) →
      ∃ H'', body i H' = .ok H'' ∧ OnlyAt (gt dest i) H' H'' ∧ (gt H'' (gt dest i)).size = pkt ∧ P i H' (gt H'' (gt dest i))) :
    ∃ H', forN m H body = .ok H' ∧ Frame dest H H' ∧ (∀ i, i < m → (gt H' (gt dest i)).size = pkt ∧ P i H (gt H' (gt dest i))) ∧
      ∀ b, (∀ j, j < m → gt dest j ≠ b) → gt H' b = gt H b := by
  obtain ⟨H', e, h0, h1, h2⟩ := forN_inv (n := m) (s := H) (f := body)
    (I := fun t H' => H'.size = H.size ∧ (∀ b, (∀ j, j < t → gt dest j ≠ b) → gt H' b = gt H b) ∧
      ∀ i, i < t → (gt H' (gt dest i)).size = pkt ∧ P i H (gt H' (gt dest i)))
    ⟨rfl, fun _ _ => rfl, by simp⟩ (by
      rintro t H1 ht ⟨h0, h1, h2⟩
      obtain ⟨H2, e2, o2, s2, p2⟩ := hb t H1 ht h0 h1
      refine ⟨H2, e2, by rw [o2.1, h0], ?_, ?_⟩
      · intro b hb'
        rw [o2.2 b (fun h => hb' t (by omega) h.symm)]
        exact h1 b (fun j hj => hb' j (by omega))
      · intro i hi
        by_cases hit : i = t
        · subst hit
          exact ⟨s2, hP i H H1 _ ht h1 p2⟩
        · have hne : gt dest i ≠ gt dest t := fun h => hit (hinj i t (by omega) (by omega) h)
          rw [o2.2 _ hne]
          exact h2 i (by omega))
  exact ⟨H', e, ⟨h0, fun b hb' => h1 b (fun j hj => hb' j (by omega))⟩, h2, h1⟩

/-- `mul_vec_to_vecp`: buffer `i` of `dest` is buffer `i` of `src` times `u[i]`.
The two objects may share buffers, as long as no buffer is read after it is written. -/
theorem mul_vec_to_vecp_spec {u : Array Nat} {src dest : Bufs} {H : Heap} {pkt : Nat} (hu : u.size = src.n)
    (hss : u.size ≤ src.mem.size) (hds : u.size ≤ dest.mem.size) (hpkt : src.size = pkt)
    (hinj : InjPtr dest.mem) (hal : ∀ i j, i < u.size → j < i → gt src.mem i ≠ gt dest.mem j)
    (hc : ∀ i, i < u.size → S.Coef (gt u i)) (hs : Okb pkt H src.mem) (hd : Okb pkt H dest.mem)
    (hV : ∀ i c, i < u.size → c < pkt → S.V (el H (gt src.mem i) c)) :
    ∃ H', BufOps.mul_vec_to_vecp F u src dest H = .ok H' ∧ Frame dest.mem H H' ∧ Okb pkt H' dest.mem ∧
      (∀ i, i < u.size → ∀ c, c < pkt → S.V (el H' (gt dest.mem i) c) ∧
        S.φ (el H' (gt dest.mem i) c) = S.φ (gt u i) * S.φ (el H (gt src.mem i) c)) ∧
      ∀ b, (∀ j, j < u.size → gt dest.mem j ≠ b) → gt H' b = gt H b := by
  unfold BufOps.mul_vec_to_vecp
  simp only [cassert, hu, decide_true, if_true, ok_bind]
  rw [← hu, hpkt]
  obtain ⟨H', e, f, g, o⟩ := rowLoop (dest := dest.mem) (pkt := pkt) (m := u.size) (H := H)
    (P := fun i H x => ∀ c, c < pkt → S.V (gt x c) ∧ S.φ (gt x c) = S.φ (gt u i) * S.φ (el H (gt src.mem i) c))
    (body := fun i H => do
      let coef ← rd u i
      let s ← rd src.mem i
      let d ← rd dest.mem i
      BufOps.mulCoef F coef s d pkt H) hinj hds (by
      intro i H1 H2 x hi h hx c hc'
      have := hx c hc'
      unfold el at this ⊢
      rw [h _ (fun j hj => (hal i j hi hj).symm)] at this
      exact this) (by
      intro i H1 hi hsz h
      have h1 := hs i (by omega)
      have h2 := hd i (by omega)
      have e1 : gt H1 (gt src.mem i) = gt H (gt src.mem i) := h _ (fun j hj => (hal i j hi hj).symm)
      have e2 : gt H1 (gt dest.mem i) = gt H (gt dest.mem i) := h _ (fun j hj he => by
        have := hinj j i (by omega) (by omega) he; omega)
      obtain ⟨H2, e3, o, s, g⟩ := mulCoef_spec (S := S) (H := H1) (d := gt dest.mem i) (s := gt src.mem i) (pkt := pkt) (hc i hi)
        (by omega) (by omega) (by rw [e2]; exact h2.2) (by rw [e1]; exact h1.2) (fun c hc' => by
          unfold el; rw [e1]; exact hV i c hi hc')
      exact ⟨H2, by rw [rd_gt (a := u) hi, ok_bind, rd_gt (a := src.mem) (by omega), ok_bind, rd_gt (a := dest.mem) (by omega),
        ok_bind, e3], o, s, g⟩)
  refine ⟨H', e, f, ?_, fun i hi => (g i hi).2, o⟩
  intro i hi
  rw [f.size]
  refine ⟨(hd i hi).1, ?_⟩
  by_cases h : i < u.size
  · exact (g i h).1
  · rw [o _ (fun j hj he => by have := hinj j i (by omega) hi he; omega)]
    exact (hd i hi).2

/-- `neg(Buffers)` -/
theorem negBufs_spec {B : Bufs} {H : Heap} {pkt : Nat} (hn : B.n = B.mem.size) (hpkt : B.size = pkt) (hinj : InjPtr B.mem)
    (hd : Okb pkt H B.mem) (hV : ∀ i c, i < B.mem.size → c < pkt → S.V (el H (gt B.mem i) c)) :
    ∃ H', BufOps.negBufs F B H = .ok H' ∧ Frame B.mem H H' ∧ Okb pkt H' B.mem ∧
      ∀ i, i < B.mem.size → ∀ c, c < pkt → S.V (el H' (gt B.mem i) c) ∧
        S.φ (el H' (gt B.mem i) c) = - S.φ (el H (gt B.mem i) c) := by
  unfold BufOps.negBufs
  rw [hn, hpkt]
  obtain ⟨H', e, f, g, o⟩ := rowLoop (dest := B.mem) (pkt := pkt) (m := B.mem.size) (H := H)
    (P := fun i H x => ∀ c, c < pkt → S.V (gt x c) ∧ S.φ (gt x c) = - S.φ (el H (gt B.mem i) c))
    (body := fun i H => do
      let p ← B.get i
      BufOps.negBuf F pkt p H) hinj le_rfl (by
      intro i H1 H2 x hi h hx c hc'
      have := hx c hc'
      unfold el at this ⊢
      rw [h _ (fun j hj he => by have := hinj j i (by omega) hi he; omega)] at this
      exact this) (by
      intro i H1 hi hsz h
      have h2 := hd i hi
      have e2 : gt H1 (gt B.mem i) = gt H (gt B.mem i) := h _ (fun j hj he => by
        have := hinj j i (by omega) hi he; omega)
      obtain ⟨H2, e3, o, s, g⟩ := negBuf_spec (S := S) (H := H1) (d := gt B.mem i) (pkt := pkt)
        (by omega) (by rw [e2]; exact h2.2) (fun c hc' => by unfold el; rw [e2]; exact hV i c hi hc')
      refine ⟨H2, ?_, o, s, g⟩
      unfold Bufs.get
      simp only [cassert, hn, hi, decide_true, if_true, ok_bind]
      rw [rd_gt hi, ok_bind, e3])
  refine ⟨H', e, f, ?_, fun i hi => (g i hi).2⟩
  intro i hi
  rw [f.size]
  exact ⟨(hd i hi).1, (g i hi).1⟩

end

/-- What decoding needs of the buffer operations of a build. -/
structure Build.Ops (bd : Build) {F : GF} {K : Type} [Field K] (S : F.Sim K) : Prop where
  mulv : ∀ {u : Array Nat} {src dest : Bufs} {H : Heap} {pkt : Nat}, u.size = src.n →
    u.size ≤ src.mem.size → u.size ≤ dest.mem.size → src.size = pkt →
    InjPtr dest.mem → (∀ i j, i < u.size → j < i → gt src.mem i ≠ gt dest.mem j) →
    (∀ i, i < u.size → S.Coef (gt u i)) → Okb pkt H src.mem → Okb pkt H dest.mem →
    (∀ i c, i < u.size → c < pkt → S.V (el H (gt src.mem i) c)) →
    ∃ H', bd.mulv F u src dest H = .ok H' ∧ Frame dest.mem H H' ∧ Okb pkt H' dest.mem ∧
      (∀ i, i < u.size → ∀ c, c < pkt → S.V (el H' (gt dest.mem i) c) ∧
        S.φ (el H' (gt dest.mem i) c) = S.φ (gt u i) * S.φ (el H (gt src.mem i) c)) ∧
      ∀ b, (∀ j, j < u.size → gt dest.mem j ≠ b) → gt H' b = gt H b
  negv : ∀ {B : Bufs} {H : Heap} {pkt : Nat}, B.n = B.mem.size → B.size = pkt → InjPtr B.mem →
    Okb pkt H B.mem → (∀ i c, i < B.mem.size → c < pkt → S.V (el H (gt B.mem i) c)) →
    ∃ H', bd.negv F B H = .ok H' ∧ Frame B.mem H H' ∧ Okb pkt H' B.mem ∧
      ∀ i, i < B.mem.size → ∀ c, c < pkt → S.V (el H' (gt B.mem i) c) ∧
        S.φ (el H' (gt B.mem i) c) = - S.φ (el H (gt B.mem i) c)

theorem Build.scalar_ops {F : GF} {K : Type} [Field K] (S : F.Sim K) : Build.scalar.Ops S :=
  ⟨mul_vec_to_vecp_spec, negBufs_spec⟩

/-! ### transforms -/

/-- A transform object on buffers of `pkt` words computes the DFT of each column,
reads only the input buffers and writes only the output buffers, and leaves the
order of the pointers of the output object. -/
structure FTH.Spec {F : GF} {K : Type} [Field K] (S : F.Sim K) (T : FTH) (pkt N : Nat) (w : K) (okLen : Nat → Prop) : Prop where
  fft : ∀ {H : Heap} {mem inp : Array Nat}, mem.size = N → okLen inp.size → InjPtr mem → Disj mem inp →
    Okb pkt H mem → Okb pkt H inp → (∀ j c, j < inp.size → c < pkt → S.V (el H (gt inp j) c)) →
    ∃ H', T.fft mem inp H = .ok H' ∧ Frame mem H H' ∧ Okb pkt H' mem ∧ ∀ i, i < N → ∀ c, c < pkt →
      S.V (el H' (gt mem i) c) ∧
      S.φ (el H' (gt mem i) c) = ∑ j ∈ range inp.size, w ^ (i * j) * S.φ (el H (gt inp j) c)
  fft_inv : ∀ {H : Heap} {mem inp : Array Nat}, mem.size = N → 0 < inp.size → inp.size ≤ N → InjPtr mem → Disj mem inp →
    Okb pkt H mem → Okb pkt H inp → (∀ j c, j < inp.size → c < pkt → S.V (el H (gt inp j) c)) →
    ∃ H', T.fft_inv mem inp H = .ok (mem, H') ∧ Frame mem H H' ∧ Okb pkt H' mem ∧ ∀ i, i < N → ∀ c, c < pkt →
      S.V (el H' (gt mem i) c) ∧
      S.φ (el H' (gt mem i) c) = ∑ j ∈ range inp.size, w⁻¹ ^ (i * j) * S.φ (el H (gt inp j) c)
  ifft : ∀ {H : Heap} {mem inp : Array Nat}, mem.size = N → 0 < inp.size → inp.size ≤ N → InjPtr mem → Disj mem inp →
    Okb pkt H mem → Okb pkt H inp → (∀ j c, j < inp.size → c < pkt → S.V (el H (gt inp j) c)) →
    ∃ H', T.ifft mem inp H = .ok (mem, H') ∧ Frame mem H H' ∧ Okb pkt H' mem ∧ ∀ i, i < N → ∀ c, c < pkt →
      S.V (el H' (gt mem i) c) ∧
      S.φ (el H' (gt mem i) c) = (N : K)⁻¹ * ∑ j ∈ range inp.size, w⁻¹ ^ (i * j) * S.φ (el H (gt inp j) c)

section
variable {K : Type} [Field K] {R : Radix2} {S : R.F.Sim K} {L : Nat} (hG : R.Good S L) {pkt : Nat}

theorem pkts_of_okb {H : Heap} {inp : Array Nat} (h : Okb pkt H inp) (hV : ∀ j c, j < inp.size → c < pkt → S.V (el H (gt inp j) c)) :
    Pkts S pkt (inp.map (gt H)) := by
  intro j hj
  have hj' : j < inp.size := by simpa using hj
  rw [gt_map hj']
  exact ⟨(h j hj').2, fun c hc => hV j c hj' hc⟩

include hG in
/-- a radix-2 object on buffers -/
theorem Radix2.fth_spec (hL : L < 31) (hdl : 0 < R.data_len) (hc : S.Coef R.inv_n) (hi' : S.φ R.inv_n = ((2 ^ L : Nat) : K)⁻¹) :
    (R.fth pkt).Spec S pkt (2 ^ L) (S.φ R.w) (fun m => 0 < m ∧ ∃ d, d ≤ L ∧ (if m > R.data_len then m else R.data_len) = 2 ^ d) := by
  have inv : ∀ {H : Heap} {mem inp : Array Nat}, mem.size = 2 ^ L → 0 < inp.size → inp.size ≤ 2 ^ L → InjPtr mem → Disj mem inp →
      Okb pkt H mem → Okb pkt H inp → (∀ j c, j < inp.size → c < pkt → S.V (el H (gt inp j) c)) →
      ∃ H', R.fftInvH pkt mem inp H = .ok (mem, H') ∧ Frame mem H H' ∧ Okb pkt H' mem ∧ ∀ i, i < 2 ^ L → ∀ c, c < pkt →
        S.V (el H' (gt mem i) c) ∧
        S.φ (el H' (gt mem i) c) = ∑ j ∈ range inp.size, (S.φ R.w)⁻¹ ^ (i * j) * S.φ (el H (gt inp j) c) := by
    intro H mem inp h1 h2 h3 h4 h5 h6 h7 h8
    obtain ⟨r, e, sr, pr, gr⟩ := Radix2.fft_inv_pkt hG hL (pkt := pkt) (out := mem.map (gt H)) (input := inp.map (gt H))
      (by simpa using h1) (fun i hi => by rw [gt_map (by omega)]; exact (h6 i (by omega)).2) (by simpa using h2) (by simpa using h3)
      (pkts_of_okb h7 h8)
    obtain ⟨H', e', v', f'⟩ := fftInvH_ref hG h5 h4 h1 h6.view h7.view e
    refine ⟨H', e', f', v'.okb, fun i hi c hc' => ?_⟩
    rw [v'.el (by omega)]
    refine ⟨(pr i (by omega)).2 c hc', ?_⟩
    rw [gr i hi c hc']
    simp only [Array.size_map]
    refine sum_congr rfl (fun j hj => ?_)
    rw [gt_map (mem_range.mp hj)]; rfl
  refine ⟨?_, inv, ?_⟩
  · rintro H mem inp h1 ⟨hpos, d, hd, hK⟩ h4 h5 h6 h7 h8
    obtain ⟨r, e, sr, pr, gr⟩ := Radix2.fft_pkt hG hd (pkt := pkt) (out := mem.map (gt H)) (input := inp.map (gt H))
      (by simpa using h1) (by simpa using hpos) hdl (by simpa using hK) (pkts_of_okb h7 h8)
    obtain ⟨H', e', v', f'⟩ := Ref.fft h5 h4 R (by simp) (fun i hi => by
      rw [Array.size_map] at hi; rw [gt_map hi]; exact (h7 i hi).2) H _ h6.view h7.view _ e
    refine ⟨H', e', f', v'.okb, fun i hi c hc' => ?_⟩
    rw [v'.el (by omega)]
    refine ⟨(pr i (by omega)).2 c hc', ?_⟩
    rw [gr i hi c hc']
    simp only [Array.size_map]
    refine sum_congr rfl (fun j hj => ?_)
    rw [gt_map (mem_range.mp hj)]; rfl
  · intro H mem inp h1 h2 h3 h4 h5 h6 h7 h8
    obtain ⟨H1, e1, f1, o1, g1⟩ := inv h1 h2 h3 h4 h5 h6 h7 h8
    obtain ⟨H2, e2, f2, g2, _⟩ := rowLoop (dest := mem) (pkt := pkt) (m := mem.size) (H := H1)
      (P := fun i H x => ∀ c, c < pkt → S.V (gt x c) ∧ S.φ (gt x c) = S.φ R.inv_n * S.φ (el H (gt mem i) c))
      (body := fun i H => do
        let d ← rd mem i
        BufOps.mulCoef R.F R.inv_n d d pkt H) h4 le_rfl (by
        intro i Ha Hb x hi h hx c hc'
        have := hx c hc'
        unfold el at this ⊢
        rw [h _ (fun j hj he => by have := h4 j i (by omega) hi he; omega)] at this
        exact this) (by
        intro i Ha hi hsz h
        have h2 := o1 i hi
        have e2 : gt Ha (gt mem i) = gt H1 (gt mem i) := h _ (fun j hj he => by
          have := h4 j i (by omega) hi he; omega)
        obtain ⟨H2, e3, o, s, g⟩ := mulCoef_spec (S := S) (H := Ha) (d := gt mem i) (s := gt mem i) (pkt := pkt) hc
          (by omega) (by omega) (by rw [e2]; exact h2.2) (by rw [e2]; exact h2.2)
          (fun c hc' => by unfold el; rw [e2]; exact (g1 i (by omega) c hc').1)
        exact ⟨H2, by rw [rd_gt hi, ok_bind, e3], o, s, g⟩)
    refine ⟨H2, ?_, f1.trans f2, ?_, fun i hi c hc' => ?_⟩
    · show R.ifftH pkt mem inp H = _
      unfold Radix2.ifftH
      rw [e1, ok_bind]
      simp only
      rw [e2, ok_bind]
      rfl
    · intro i hi
      rw [f2.size]
      exact ⟨(o1 i hi).1, (g2 i hi).1⟩
    · have := (g2 i (by omega)).2 c hc'
      rw [(g1 i hi c hc').2, hi'] at this
      exact this

end
end Quad
