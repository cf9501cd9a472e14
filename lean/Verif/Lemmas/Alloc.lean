import Verif.Spec.Alloc

/-! # The invariant of the allocator -/

namespace Quad.Alloc

theorem alignment_cases (isa : Isa) :
    isa.alignment = 8 ∨ isa.alignment = 16 ∨ isa.alignment = 32 := by
  cases isa <;> simp [Isa.alignment]

theorem alignment_pos (isa : Isa) : 0 < isa.alignment := by
  rcases alignment_cases isa with h | h | h <;> omega

/-- the block obtained for `h` -/
def blk (isa : Isa) (h : Held) : Nat × Nat := (h.addr, h.len + extra isa)

structure Good (isa : Isa) (M : Mem) (h : Held) : Prop where
  nz : h.addr ≠ 0
  top : h.addr + (h.len + extra isa) ≤ 2 ^ 64
  plain : isa = .none → h.ptr = h.addr
  simd : isa ≠ .none → h.ptr = h.addr + (isa.alignment - h.addr % isa.alignment) ∧
    M.byte (h.ptr - 1) = h.ptr - h.addr

/-- the blocks of `h` and `k` have no byte in common -/
def Away (isa : Isa) (h k : Held) : Prop :=
  h.addr ≠ k.addr ∧ (h.addr + (h.len + extra isa) ≤ k.addr ∨ k.addr + (k.len + extra isa) ≤ h.addr)

theorem Away.symm {isa : Isa} {h k : Held} (a : Away isa h k) : Away isa k h :=
  ⟨a.1.symm, a.2.symm⟩

structure Inv (isa : Isa) (M : Mem) (hs : List Held) : Prop where
  live : M.live = hs.map (blk isa)
  away : hs.Pairwise (Away isa)
  good : ∀ h ∈ hs, Good isa M h

theorem Good.ptr_le {isa : Isa} {M : Mem} {h : Held} (g : Good isa M h) :
    h.addr ≤ h.ptr ∧ h.ptr + h.len ≤ h.addr + (h.len + extra isa) ∧ (isa ≠ .none → h.addr < h.ptr) := by
  by_cases hi : isa = .none
  · have := g.plain hi
    exact ⟨by omega, by omega, fun h => absurd hi h⟩
  · have e := (g.simd hi).1
    have := Nat.mod_lt h.addr (alignment_pos isa)
    have ex : extra isa = isa.alignment := if_neg hi
    refine ⟨?_, ?_, fun _ => ?_⟩ <;> omega

theorem away_of {isa : Isa} {hs : List Held} (p : hs.Pairwise (Away isa)) {h k : Held} (hh : h ∈ hs)
    (hk : k ∈ hs) (ne : h ≠ k) : Away isa h k := by
  induction p with
  | nil => cases hh
  | cons a _ ih =>
    rcases List.mem_cons.1 hh with e1 | h1
    · rcases List.mem_cons.1 hk with e2 | h2
      · exact absurd (e1.trans e2.symm) ne
      · rw [e1]; exact a _ h2
    · rcases List.mem_cons.1 hk with e2 | h2
      · rw [e2]; exact (a _ h1).symm
      · exact ih h1 h2

theorem inside_of {M : Mem} {isa : Isa} {hs : List Held} (i : Inv isa M hs) {h : Held} (hh : h ∈ hs) {a : Nat}
    (h1 : h.addr ≤ a) (h2 : a < h.addr + (h.len + extra isa)) : M.inside a = true := by
  rw [Mem.inside, i.live, List.any_eq_true]
  exact ⟨blk isa h, List.mem_map_of_mem hh, decide_eq_true ⟨h1, h2⟩⟩

/-- writing in the range of a held pointer -/
theorem Inv.write {isa : Isa} {M : Mem} {hs : List Held} (i : Inv isa M hs) {p x : Nat}
    (hp : ∃ h ∈ hs, h.ptr ≤ p ∧ p < h.ptr + h.len) :
    ∃ M', wrByte p x M = ok M' ∧ Inv isa M' hs ∧ M'.live = M.live := by
  obtain ⟨h, hh, h1, h2⟩ := hp
  have gp := (i.good h hh).ptr_le
  refine ⟨_, if_pos (inside_of i hh (a := p) (by omega) (by omega)), ⟨i.live, i.away, fun k hk => ?_⟩, rfl⟩
  have g := i.good k hk
  refine ⟨g.nz, g.top, g.plain, fun hi => ⟨(g.simd hi).1, ?_⟩⟩
  have kp := g.ptr_le
  have : k.ptr - 1 ≠ p := by
    by_cases hk' : h = k
    · subst hk'
      have := gp.2.2 hi
      omega
    · have a := (away_of i.away hh hk hk').2
      have := kp.2.2 hi
      have := gp.2.2 hi
      omega
  show (if k.ptr - 1 = p then x % 256 else M.byte (k.ptr - 1)) = _
  rw [if_neg this]
  exact (g.simd hi).2

theorem le_max_size {isa : Isa} {sz count : Nat} (h : 0 < sz) :
    count ≤ max_size isa sz ↔ Sane isa sz count := by
  rw [max_size, Nat.le_div_iff_mul_le h, Sane]
  rcases alignment_cases isa with e | e | e <;> rw [e] <;> omega

/-- the pointer returned for a block at `addr` -/
def ptrOf (isa : Isa) (addr : Nat) : Nat :=
  if isa = .none then addr else addr + (isa.alignment - addr % isa.alignment)

theorem Inv.alloc {isa : Isa} {M : Mem} {hs : List Held} (i : Inv isa M hs) {sz count addr : Nat} (hsz : 0 < sz)
    (hs' : Sane isa sz count) (hf : Fresh M addr (count * sz + extra isa)) :
    ∃ M', allocate isa sz count addr M = ok (some (ptrOf isa addr), M') ∧
      Inv isa M' (⟨ptrOf isa addr, count * sz, addr⟩ :: hs) ∧
      M'.live = (addr, count * sz + extra isa) :: M.live := by
  have hc : ¬ max_size isa sz < count := by
    have := (le_max_size hsz).2 hs'
    omega
  have hsane := hs'
  unfold Sane at hsane
  have aw : ∀ k ∈ hs, Away isa ⟨ptrOf isa addr, count * sz, addr⟩ k := by
    intro k hk
    exact hf.2.2 (blk isa k) (by rw [i.live]; exact List.mem_map_of_mem hk)
  unfold allocate
  rw [if_neg hc]
  by_cases hi : isa = .none
  · rw [if_pos hi]
    have ex : extra isa = 0 := if_pos hi
    have w : wrap 64 (count * sz) = count * sz := Nat.mod_eq_of_lt (by omega)
    have pp : ptrOf isa addr = addr := if_pos hi
    rw [pp, w]
    refine ⟨_, rfl, ⟨?_, ?_, ?_⟩, ?_⟩
    · show (addr, count * sz) :: M.live = _
      rw [i.live, List.map_cons, blk, ex]
      rfl
    · refine List.pairwise_cons.2 ⟨?_, i.away⟩
      rw [pp] at aw
      exact aw
    · intro h hh
      rcases List.mem_cons.1 hh with rfl | hh
      · exact ⟨hf.1, hf.2.1, fun _ => rfl, fun h => absurd hi h⟩
      · have g := i.good h hh
        exact ⟨g.nz, g.top, g.plain, fun h => absurd hi h⟩
    · rw [ex]; rfl
  · rw [if_neg hi]
    have ex : extra isa = isa.alignment := if_neg hi
    have hA := Nat.mod_lt addr (alignment_pos isa)
    have w1 : wrap 64 (count * sz) = count * sz := Nat.mod_eq_of_lt (by omega)
    have w2 : wrap 64 (count * sz + isa.alignment) = count * sz + extra isa := by
      rw [ex]; exact Nat.mod_eq_of_lt hsane
    have hA2 : isa.alignment ≤ 32 := by rcases alignment_cases isa with e | e | e <;> omega
    have pp : ptrOf isa addr = addr + (isa.alignment - addr % isa.alignment) := if_neg hi
    have c1 : decide (1 ≤ isa.alignment - addr % isa.alignment) = true := decide_eq_true (by omega)
    have c2 : decide (isa.alignment - addr % isa.alignment ≤ 255) = true := decide_eq_true (by omega)
    simp only [w1, w2, cassert, c1, c2, if_true, ok_bind]
    have ins : (opNew addr (count * sz + extra isa) M).inside
        (addr + (isa.alignment - addr % isa.alignment) - 1) = true := by
      rw [Mem.inside, List.any_eq_true]
      refine ⟨(addr, count * sz + extra isa), List.mem_cons_self, decide_eq_true ?_⟩
      constructor <;> simp only <;> omega
    rw [wrByte, if_pos ins, ← pp]
    refine ⟨_, rfl, ⟨?_, List.pairwise_cons.2 ⟨aw, i.away⟩, ?_⟩, rfl⟩
    · show (addr, count * sz + extra isa) :: M.live = _
      rw [i.live, List.map_cons, blk]
    · intro h hh
      rcases List.mem_cons.1 hh with rfl | hh
      · refine ⟨hf.1, hf.2.1, fun h => absurd h hi, fun _ => ⟨pp, ?_⟩⟩
        show (if ptrOf isa addr - 1 = ptrOf isa addr - 1 then _ else _) = _
        rw [if_pos rfl]
        show (isa.alignment - addr % isa.alignment) % 256 = ptrOf isa addr - addr
        rw [pp, Nat.mod_eq_of_lt (by omega)]
        omega
      · have g := i.good h hh
        refine ⟨g.nz, g.top, g.plain, fun _ => ⟨(g.simd hi).1, ?_⟩⟩
        have kp := g.ptr_le
        have := kp.2.2 hi
        have a := (aw h hh).2
        simp only at a
        show (if h.ptr - 1 = ptrOf isa addr - 1 then _ else M.byte (h.ptr - 1)) = _
        rw [if_neg (by omega)]
        exact (g.simd hi).2

theorem erase_map {isa : Isa} {hs : List Held} (p : hs.Pairwise (Away isa)) {h : Held} (hh : h ∈ hs) :
    (hs.map (blk isa)).eraseP (fun b => decide (b.1 = h.addr)) = (hs.erase h).map (blk isa) := by
  induction p with
  | nil => cases hh
  | @cons k ks a _ ih =>
    by_cases e : k = h
    · subst e
      rw [List.erase_cons_head, List.map_cons, List.eraseP_cons_of_pos]
      exact decide_eq_true rfl
    · have hm : h ∈ ks := by
        rcases List.mem_cons.1 hh with h | h
        · exact absurd h.symm e
        · exact h
      rw [List.erase_cons_tail (by simpa using e), List.map_cons, List.map_cons, List.eraseP_cons_of_neg, ih hm]
      have := (a h hm).1
      exact fun q => this (of_decide_eq_true q)

theorem Inv.free {isa : Isa} {M : Mem} {hs : List Held} (i : Inv isa M hs) {h : Held} (hh : h ∈ hs) :
    ∃ M', deallocate isa h.ptr M = ok M' ∧ Inv isa M' (hs.erase h) ∧
      M'.live = M.live.erase (h.addr, h.len + extra isa) ∧ (h.addr, h.len + extra isa) ∈ M.live := by
  have g := i.good h hh
  have hm : (h.addr, h.len + extra isa) ∈ M.live := by
    rw [i.live]; exact List.mem_map_of_mem (f := blk isa) hh
  have key : opDelete h.addr M = ok { M with live := (hs.erase h).map (blk isa) } := by
    rw [opDelete, if_neg g.nz, if_pos, i.live, erase_map i.away hh]
    rw [List.any_eq_true]
    exact ⟨_, hm, decide_eq_true rfl⟩
  have e2 : (hs.erase h).map (blk isa) = M.live.erase (h.addr, h.len + extra isa) := by
    rw [← erase_map i.away hh, ← i.live]
    have key2 : ∀ l : List (Nat × Nat), (h.addr, h.len + extra isa) ∈ l →
        (∀ b ∈ l, b.1 = h.addr → b = (h.addr, h.len + extra isa)) →
        l.eraseP (fun b => decide (b.1 = h.addr)) = l.erase (h.addr, h.len + extra isa) := by
      intro l hl hu
      induction l with
      | nil => rfl
      | cons b l ih =>
        by_cases e : b = (h.addr, h.len + extra isa)
        · subst e
          rw [List.erase_cons_head, List.eraseP_cons_of_pos (by simp)]
        · have e' : ¬ b.1 = h.addr := fun q => e (hu b List.mem_cons_self q)
          rw [List.erase_cons_tail (by simpa using e), List.eraseP_cons_of_neg (by simpa using e')]
          rw [ih ?_ (fun c hc => hu c (List.mem_cons_of_mem _ hc))]
          rcases List.mem_cons.1 hl with q | q
          · exact absurd q.symm e
          · exact q
    refine key2 _ hm ?_
    intro b hb e
    rw [i.live] at hb
    obtain ⟨k, hk, rfl⟩ := List.mem_map.1 hb
    by_cases q : h = k
    · rw [q]; rfl
    · exact absurd e.symm (away_of i.away hh hk q).1
  have inv' : Inv isa { M with live := (hs.erase h).map (blk isa) } (hs.erase h) :=
    ⟨rfl, i.away.sublist List.erase_sublist, fun k hk => by
      have g := i.good k (List.mem_of_mem_erase hk)
      exact ⟨g.nz, g.top, g.plain, g.simd⟩⟩
  refine ⟨_, ?_, inv', e2, hm⟩
  unfold deallocate
  by_cases hi : isa = .none
  · rw [if_pos hi, g.plain hi, key]
  · have kp := g.ptr_le
    have k2 := kp.2.2 hi
    have ex : extra isa = isa.alignment := if_neg hi
    have q := Nat.mod_lt h.addr (alignment_pos isa)
    have s1 := (g.simd hi).1
    rw [if_neg hi, if_neg (by omega), rdByte, if_pos (inside_of i hh (by omega) (by omega)), ok_bind,
      (g.simd hi).2]
    have e : h.ptr - (h.ptr - h.addr) = h.addr := by omega
    rw [e, key]

theorem reach_inv {isa : Isa} {M : Mem} {hs : List Held} (r : Reach isa M hs) : Inv isa M hs := by
  induction r with
  | start M h => exact ⟨h, .nil, fun _ h => nomatch h⟩
  | @next M hs a M' hs' _ l e i =>
    cases a with
    | alloc sz count addr =>
      by_cases s : Sane isa sz count
      · obtain ⟨M1, e1, i1, -⟩ := i.alloc l.1 s (l.2 s)
        rw [act, e1, ok_bind] at e
        simp only [Except.ok.injEq, Prod.mk.injEq] at e
        obtain ⟨rfl, rfl⟩ := e
        exact i1
      · have : max_size isa sz < count := by
          rw [← le_max_size l.1] at s; omega
        rw [act, allocate, if_pos this, ok_bind] at e
        simp only [Except.ok.injEq, Prod.mk.injEq] at e
        obtain ⟨rfl, rfl⟩ := e
        exact i
    | write p x =>
      obtain ⟨M1, e1, i1, -⟩ := i.write (x := x) l
      rw [act, e1, ok_bind] at e
      simp only [Except.ok.injEq, Prod.mk.injEq] at e
      obtain ⟨rfl, rfl⟩ := e
      exact i1
    | free h =>
      obtain ⟨M1, e1, i1, -⟩ := i.free l
      rw [act, e1, ok_bind] at e
      simp only [Except.ok.injEq, Prod.mk.injEq] at e
      obtain ⟨rfl, rfl⟩ := e
      exact i1

end Quad.Alloc
