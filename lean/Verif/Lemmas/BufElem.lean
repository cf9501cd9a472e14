import Verif.Lemmas.BufOps

/-!
Element-wise operations on blocks, for any field object.
-/

namespace Quad

/-- reading, in turn `j`, entry `j` of a block when only entries before `j` of block `d` have been written -/
theorem rdEl_turn {H H1 : Heap} {d s pkt j : Nat} {f : Nat → Nat} (hs : s < H.size) (h2 : (gt H s).size = pkt) (hj : j < pkt)
    (ho : OnlyAt d H H1) (hsz : (gt H1 d).size = pkt) (hg : ∀ i, gt (gt H1 d) i = if i < j then f i else gt (gt H d) i) :
    Heap.rdEl H1 s j = .ok (el H s j) := by
  unfold el
  by_cases hsd : s = d
  · subst hsd
    rw [Heap.rdEl_ok (by rw [ho.1]; exact hs) (by omega), hg, if_neg (by omega)]
  · rw [Heap.rdEl_ok (by rw [ho.1]; exact hs) (by rw [ho.2 s hsd]; omega), ho.2 s hsd]

variable (F : GF) {H : Heap} {len : Nat}

theorem mul_coef_to_buf_el {a src dest : Nat} (hs : src < H.size) (hd : dest < H.size) (h1 : (gt H src).size = len)
    (h2 : (gt H dest).size = len) : ∃ H', BufOps.mul_coef_to_buf F a src dest len H = .ok H' ∧ OnlyAt dest H H' ∧
      (gt H' dest).size = len ∧ ∀ c, c < len → el H' dest c = F.mul a (el H src c) :=
  blockLoop hd h2 (fun j H1 hj ho hsz hg => by simp only [rdEl_turn hs h1 hj ho hsz hg, ok_bind])

theorem negBuf_el {x : Nat} (hx : x < H.size) (h1 : (gt H x).size = len) :
    ∃ H', BufOps.negBuf F len x H = .ok H' ∧ OnlyAt x H H' ∧
      (gt H' x).size = len ∧ ∀ c, c < len → el H' x c = F.sub 0 (el H x c) :=
  blockLoop hx h1 (fun j H1 hj ho hsz hg => by simp only [rdEl_turn hx h1 hj ho hsz hg, ok_bind])

theorem add_two_bufs_el {src dest : Nat} (hs : src < H.size) (hd : dest < H.size) (h1 : (gt H src).size = len)
    (h2 : (gt H dest).size = len) : ∃ H', BufOps.add_two_bufs F src dest len H = .ok H' ∧ OnlyAt dest H H' ∧
      (gt H' dest).size = len ∧ ∀ c, c < len → el H' dest c = F.add (el H src c) (el H dest c) :=
  blockLoop hd h2 (fun j H1 hj ho hsz hg => by
    simp only [rdEl_turn hs h1 hj ho hsz hg, rdEl_turn hd h2 hj ho hsz hg, ok_bind])

theorem sub_two_bufs_el {a b res : Nat} (ha : a < H.size) (hb : b < H.size) (hr : res < H.size) (h1 : (gt H a).size = len)
    (h2 : (gt H b).size = len) (h3 : (gt H res).size = len) :
    ∃ H', BufOps.sub_two_bufs F a b res len H = .ok H' ∧ OnlyAt res H H' ∧
      (gt H' res).size = len ∧ ∀ c, c < len → el H' res c = F.sub (el H a c) (el H b c) :=
  blockLoop hr h3 (fun j H1 hj ho hsz hg => by
    simp only [rdEl_turn ha h1 hj ho hsz hg, rdEl_turn hb h2 hj ho hsz hg, ok_bind])

theorem hadamard_mul_el {x y : Nat} (hx : x < H.size) (hy : y < H.size) (h1 : (gt H x).size = len)
    (h2 : (gt H y).size = len) : ∃ H', BufOps.hadamard_mul F len x y H = .ok H' ∧ OnlyAt x H H' ∧
      (gt H' x).size = len ∧ ∀ c, c < len → el H' x c = F.mul (el H x c) (el H y c) :=
  blockLoop hx h1 (fun j H1 hj ho hsz hg => by
    simp only [rdEl_turn hx h1 hj ho hsz hg, rdEl_turn hy h2 hj ho hsz hg, ok_bind])

theorem Bufs.get_ok {B : Bufs} {i : Nat} (h : i < B.n) (h' : i < B.mem.size) : B.get i = .ok (gt B.mem i) := by
  unfold Bufs.get
  simp only [cassert, h, decide_true, if_true, ok_bind]
  exact rd_gt h'

theorem mulCoef_el {s d coef : Nat} (hd : d < H.size) (hs : s < H.size) (h1 : (gt H d).size = len) (h2 : (gt H s).size = len)
    (hle : coef ≤ F.cardM1) :
    ∃ H', BufOps.mulCoef F coef s d len H = .ok H' ∧ OnlyAt d H H' ∧ (gt H' d).size = len ∧
      ∀ c, c < len → el H' d c = if coef = 1 then el H s c else if coef = 0 then 0
        else if coef = F.cardM1 then F.sub 0 (el H s c) else F.mul coef (el H s c) := by
  unfold BufOps.mulCoef
  by_cases c1 : coef > 1 ∧ coef < F.cardM1
  · rw [if_pos c1]
    obtain ⟨H', e, o, sz, g⟩ := mul_coef_to_buf_el F (a := coef) hs hd h2 h1
    refine ⟨H', e, o, sz, fun c hc => ?_⟩
    rw [g c hc, if_neg (by omega), if_neg (by omega), if_neg (by omega)]
  rw [if_neg c1]
  by_cases c2 : coef = 1
  · simp only [if_pos c2]
    obtain ⟨H', e, o, g⟩ := Heap.cpy_spec hd hs h1 h2
    exact ⟨H', e, o, by rw [g]; exact h2, fun c hc' => by unfold el; rw [g]⟩
  simp only [if_neg c2]
  by_cases c3 : coef = 0
  · simp only [if_pos c3]
    obtain ⟨H', e, o, g⟩ := Heap.fill_spec (x := 0) hd h1
    exact ⟨H', e, o, by rw [g]; simp, fun c hc' => by unfold el; rw [g, gt_replicate hc']⟩
  have c4 : coef = F.cardM1 := by omega
  simp only [if_neg c3, if_pos c4]
  obtain ⟨H1, e1, o1, g1⟩ := Heap.cpy_spec hd hs h1 h2
  obtain ⟨H2, e2, o2, s2, g2⟩ := negBuf_el F (H := H1) (x := d) (len := len) (by rw [o1.1]; exact hd) (by rw [g1]; exact h2)
  refine ⟨H2, by rw [e1, ok_bind, e2], ⟨by rw [o2.1, o1.1], fun b hb => by rw [o2.2 b hb, o1.2 b hb]⟩, s2, fun c hc' => ?_⟩
  rw [g2 c hc']
  unfold el
  rw [g1]

/-- one operation per buffer, buffer `dst i` being written in turn `i` from blocks no earlier turn has written -/
theorem bufsLoop {dst : Array Nat} {m : Nat} {srcs : Nat → List Nat} {body : Nat → Heap → Res Heap}
    {f : Nat → (Nat → Nat) → Nat} (hinj : InjPtr dst) (hm : m ≤ dst.size) (hd : Okb len H dst)
    (hal : ∀ i j, i < m → j < i → ∀ s ∈ srcs i, s ≠ gt dst j)
    (hb : ∀ i H1, i < m → H1.size = H.size → (∀ s ∈ srcs i, gt H1 s = gt H s) → gt H1 (gt dst i) = gt H (gt dst i) →
      ∃ H2, body i H1 = .ok H2 ∧ OnlyAt (gt dst i) H1 H2 ∧ (gt H2 (gt dst i)).size = len ∧
        ∀ c, c < len → el H2 (gt dst i) c = f i (fun s => el H1 s c))
    (hf : ∀ i (u v : Nat → Nat), i < m → (∀ s ∈ srcs i, u s = v s) → u (gt dst i) = v (gt dst i) → f i u = f i v) :
    ∃ H', forN m H body = .ok H' ∧ Frame dst H H' ∧ Okb len H' dst ∧
      (∀ i, i < m → ∀ c, c < len → el H' (gt dst i) c = f i (fun s => el H s c)) ∧
      ∀ b, (∀ j, j < m → gt dst j ≠ b) → gt H' b = gt H b := by
  have hself : ∀ i, i < m → ∀ j, j < i → gt dst j ≠ gt dst i := fun i hi j hj he => by
    have := hinj j i (by omega) (by omega) he; omega
  obtain ⟨H', e, fr, g, o⟩ := rowLoop (dest := dst) (pkt := len) (m := m) (H := H) (body := body)
    (P := fun i H x => ∀ c, c < len → gt x c = f i (fun s => el H s c)) hinj hm (by
      intro i H1 H2 x hi h hx c hc
      rw [hx c hc]
      refine hf i _ _ hi (fun s hs => ?_) ?_
      · unfold el; rw [h s (fun j hj => (hal i j hi hj s hs).symm)]
      · unfold el; rw [h _ (hself i hi)]) (by
      intro i H1 hi hsz h
      obtain ⟨H2, e2, o2, s2, g2⟩ := hb i H1 hi hsz (fun s hs => h s (fun j hj => (hal i j hi hj s hs).symm)) (h _ (hself i hi))
      exact ⟨H2, e2, o2, s2, g2⟩)
  refine ⟨H', e, fr, fun i hi => ?_, fun i hi => (g i hi).2, o⟩
  rw [fr.size]
  refine ⟨(hd i hi).1, ?_⟩
  by_cases h : i < m
  · exact (g i h).1
  · rw [o _ (fun j hj he => by have := hinj j i (by omega) hi he; omega)]
    exact (hd i hi).2

theorem mul_vec_to_vecp_el {u : Array Nat} {src dest : Bufs} (hu : u.size = src.n)
    (hss : u.size ≤ src.mem.size) (hds : u.size ≤ dest.mem.size) (hlen : src.size = len)
    (hinj : InjPtr dest.mem) (hal : ∀ i j, i < u.size → j < i → gt src.mem i ≠ gt dest.mem j)
    (hc : ∀ i, i < u.size → gt u i ≤ F.cardM1) (hs : Okb len H src.mem) (hd : Okb len H dest.mem) :
    ∃ H', BufOps.mul_vec_to_vecp F u src dest H = .ok H' ∧ Frame dest.mem H H' ∧ Okb len H' dest.mem ∧
      (∀ i, i < u.size → ∀ c, c < len → el H' (gt dest.mem i) c =
        if gt u i = 1 then el H (gt src.mem i) c else if gt u i = 0 then 0
        else if gt u i = F.cardM1 then F.sub 0 (el H (gt src.mem i) c) else F.mul (gt u i) (el H (gt src.mem i) c)) ∧
      ∀ b, (∀ j, j < u.size → gt dest.mem j ≠ b) → gt H' b = gt H b := by
  unfold BufOps.mul_vec_to_vecp
  simp only [cassert, hu, decide_true, if_true, ok_bind]
  rw [← hu, hlen]
  refine bufsLoop (srcs := fun i => [gt src.mem i]) (f := fun i v => if gt u i = 1 then v (gt src.mem i) else if gt u i = 0 then 0
        else if gt u i = F.cardM1 then F.sub 0 (v (gt src.mem i)) else F.mul (gt u i) (v (gt src.mem i))) hinj hds hd
    (by intro i j hi hj s hs'; rw [List.mem_singleton.mp hs']; exact hal i j hi hj) ?_ ?_
  · intro i H1 hi hsz h1 h2
    have h1' := h1 _ (List.mem_singleton.mpr rfl)
    have hs' := hs i (by omega)
    have hd' := hd i (by omega)
    rw [rd_gt (a := u) hi, ok_bind, rd_gt (a := src.mem) (by omega), ok_bind, rd_gt (a := dest.mem) (by omega), ok_bind]
    exact mulCoef_el F (by omega) (by omega) (by rw [h2]; exact hd'.2) (by rw [h1']; exact hs'.2) (hc i hi)
  · intro i v v' hi h _
    simp only [h _ (List.mem_singleton.mpr rfl)]

theorem add_vecp_to_vecp_el {src dest : Bufs} (hn : src.n = dest.n) (hz : src.size = dest.size)
    (hss : src.mem.size = src.n) (hds : dest.mem.size = dest.n) (hlen : src.size = len)
    (hinj : InjPtr dest.mem) (hal : ∀ i j, i < src.n → j < i → gt src.mem i ≠ gt dest.mem j)
    (hs : Okb len H src.mem) (hd : Okb len H dest.mem) :
    ∃ H', BufOps.add_vecp_to_vecp F src dest H = .ok H' ∧ Frame dest.mem H H' ∧ Okb len H' dest.mem ∧
      ∀ i, i < src.n → ∀ c, c < len → el H' (gt dest.mem i) c = F.add (el H (gt src.mem i) c) (el H (gt dest.mem i) c) := by
  unfold BufOps.add_vecp_to_vecp
  simp only [cassert, ← hn, ← hz, decide_true, if_true, ok_bind]
  rw [hlen]
  obtain ⟨H', e, f, o, g, _⟩ := bufsLoop (H := H) (len := len) (dst := dest.mem) (m := src.n) (srcs := fun i => [gt src.mem i])
    (f := fun i v => F.add (v (gt src.mem i)) (v (gt dest.mem i))) (body := fun i H => do
      let s ← src.get i
      let d ← dest.get i
      BufOps.add_two_bufs F s d len H) hinj (by omega) hd
    (by intro i j hi hj s hs'; rw [List.mem_singleton.mp hs']; exact hal i j hi hj) (by
      intro i H1 hi hsz h1 h2
      have h1' := h1 _ (List.mem_singleton.mpr rfl)
      have hs' := hs i (by omega)
      have hd' := hd i (by omega)
      rw [Bufs.get_ok hi (by omega), ok_bind, Bufs.get_ok (B := dest) (by omega) (by omega), ok_bind]
      exact add_two_bufs_el F (by omega) (by omega) (by rw [h1']; exact hs'.2) (by rw [h2]; exact hd'.2)) (by
      intro i v v' hi h h'
      simp only [h _ (List.mem_singleton.mpr rfl), h'])
  exact ⟨H', e, f, o, g⟩

theorem sub_vecp_to_vecp_el {a b res : Bufs} (hn : a.n = b.n) (hn' : res.n = a.n) (hz : a.size = b.size)
    (has : a.mem.size = a.n) (hbs : b.mem.size = b.n) (hrs : res.mem.size = res.n) (hlen : a.size = len)
    (hinj : InjPtr res.mem) (hal : ∀ i j, i < a.n → j < i → gt a.mem i ≠ gt res.mem j ∧ gt b.mem i ≠ gt res.mem j)
    (ha : Okb len H a.mem) (hb : Okb len H b.mem) (hr : Okb len H res.mem) :
    ∃ H', BufOps.sub_vecp_to_vecp F a b res H = .ok H' ∧ Frame res.mem H H' ∧ Okb len H' res.mem ∧
      ∀ i, i < a.n → ∀ c, c < len → el H' (gt res.mem i) c = F.sub (el H (gt a.mem i) c) (el H (gt b.mem i) c) := by
  unfold BufOps.sub_vecp_to_vecp
  simp only [cassert, ← hn, ← hz, decide_true, if_true, ok_bind]
  rw [hlen]
  obtain ⟨H', e, f, o, g, _⟩ := bufsLoop (H := H) (len := len) (dst := res.mem) (m := a.n) (srcs := fun i => [gt a.mem i, gt b.mem i])
    (f := fun i v => F.sub (v (gt a.mem i)) (v (gt b.mem i))) (body := fun i H => do
      let x ← a.get i
      let y ← b.get i
      let r ← res.get i
      BufOps.sub_two_bufs F x y r len H) hinj (by omega) hr
    (by
      intro i j hi hj s hs'
      rcases List.mem_pair.mp hs' with h | h <;> rw [h]
      · exact (hal i j hi hj).1
      · exact (hal i j hi hj).2) (by
      intro i H1 hi hsz h1 h2
      have h1' := h1 _ (List.mem_pair.mpr (.inl rfl))
      have h1'' := h1 _ (List.mem_pair.mpr (.inr rfl))
      have ha' := ha i (by omega)
      have hb' := hb i (by omega)
      have hr' := hr i (by omega)
      rw [Bufs.get_ok hi (by omega), ok_bind, Bufs.get_ok (B := b) (by omega) (by omega), ok_bind,
        Bufs.get_ok (B := res) (by omega) (by omega), ok_bind]
      exact sub_two_bufs_el F (by omega) (by omega) (by omega) (by rw [h1']; exact ha'.2) (by rw [h1'']; exact hb'.2)
        (by rw [h2]; exact hr'.2)) (by
      intro i v v' hi h h'
      simp only [h _ (List.mem_pair.mpr (.inl rfl)), h _ (List.mem_pair.mpr (.inr rfl))])
  exact ⟨H', e, f, o, g⟩

theorem negBufs_el {B : Bufs} (hn : B.n = B.mem.size) (hlen : B.size = len) (hinj : InjPtr B.mem) (hd : Okb len H B.mem) :
    ∃ H', BufOps.negBufs F B H = .ok H' ∧ Frame B.mem H H' ∧ Okb len H' B.mem ∧
      ∀ i, i < B.n → ∀ c, c < len → el H' (gt B.mem i) c = F.sub 0 (el H (gt B.mem i) c) := by
  unfold BufOps.negBufs
  rw [hlen]
  obtain ⟨H', e, f, o, g, _⟩ := bufsLoop (H := H) (len := len) (dst := B.mem) (m := B.n) (srcs := fun i => [])
    (f := fun i v => F.sub 0 (v (gt B.mem i))) (body := fun i H => do
      let p ← B.get i
      BufOps.negBuf F len p H) hinj (by omega) hd (by simp) (by
      intro i H1 hi hsz h1 h2
      have hd' := hd i (by omega)
      rw [Bufs.get_ok hi (by omega), ok_bind]
      exact negBuf_el F (by omega) (by rw [h2]; exact hd'.2)) (by
      intro i v v' hi h h'
      simp only [h'])
  exact ⟨H', e, f, o, g⟩

end Quad
