import Verif.Lemmas.Alloc

/-!
# C44: the aligned allocator

For every history of allocations, writes inside the allocated ranges and
releases, every instruction set and every address `operator new` may return.
-/

namespace Quad.Alloc

/-- no legitimate action is undefined or fails an assertion -/
theorem C44_defined {isa : Isa} {M : Mem} {hs : List Held} {a : Act} (r : Reach isa M hs)
    (l : Legal isa M hs a) : ∃ M' hs', act isa M hs a = ok (M', hs') ∧ Reach isa M' hs' := by
  have key : ∃ M' hs', act isa M hs a = ok (M', hs') := by
    have i := reach_inv r
    cases a with
    | alloc sz count addr =>
      by_cases s : Sane isa sz count
      · obtain ⟨M1, e1, -, -⟩ := i.alloc l.1 s (l.2 s)
        exact ⟨_, _, by rw [act, e1, ok_bind]⟩
      · have : max_size isa sz < count := by
          rw [← le_max_size l.1] at s; omega
        exact ⟨_, _, by rw [act, allocate, if_pos this, ok_bind]⟩
    | write p x =>
      obtain ⟨M1, e1, -, -⟩ := i.write (x := x) l
      exact ⟨_, _, by rw [act, e1, ok_bind]⟩
    | free h =>
      obtain ⟨M1, e1, -, -⟩ := i.free l
      exact ⟨_, _, by rw [act, e1, ok_bind]⟩
  obtain ⟨M', hs', e⟩ := key
  exact ⟨M', hs', e, r.next l e⟩

/-- every pointer held is not null, is aligned to the register size when there
are SIMD registers, and the range asked for lies inside the block that
`operator new` returned for it -/
theorem C44_aligned {isa : Isa} {M : Mem} {hs : List Held} (r : Reach isa M hs) {h : Held} (hh : h ∈ hs) :
    h.ptr ≠ 0 ∧ addr_is_aligned isa h.ptr = true ∧ (isa ≠ .none → isa.alignment ∣ h.ptr) ∧
    ∃ b ∈ M.live, b.1 = h.addr ∧ h.Inside b := by
  have i := reach_inv r
  have g := i.good h hh
  have p := g.ptr_le
  have nz := g.nz
  have dvd : isa ≠ .none → isa.alignment ∣ h.ptr := by
    intro hi
    rw [(g.simd hi).1]
    have q := Nat.mod_lt h.addr (alignment_pos isa)
    have e : h.addr + (isa.alignment - h.addr % isa.alignment)
        = isa.alignment * (h.addr / isa.alignment + 1) := by
      have := Nat.div_add_mod h.addr isa.alignment
      rw [Nat.mul_add, Nat.mul_one]
      omega
    rw [e]
    exact Nat.dvd_mul_right _ _
  refine ⟨by omega, ?_, dvd, blk isa h, ?_, rfl, p.1, p.2.1⟩
  · by_cases hi : isa = .none
    · exact if_pos hi
    · rw [addr_is_aligned, if_neg hi, beq_iff_eq]
      have d := Nat.mod_eq_zero_of_dvd (dvd hi)
      cases isa with
      | none => exact absurd rfl hi
      | sse => exact (Nat.and_two_pow_sub_one_eq_mod h.ptr 4).trans d
      | avx => exact (Nat.and_two_pow_sub_one_eq_mod h.ptr 5).trans d
  · rw [i.live]
    exact List.mem_map_of_mem hh

/-- ranges held at the same time share no byte -/
theorem C44_apart {isa : Isa} {M : Mem} {hs : List Held} (r : Reach isa M hs) : hs.Pairwise Held.Apart := by
  have i := reach_inv r
  refine i.away.imp_of_mem ?_
  intro h k hh hk a
  have p := (i.good h hh).ptr_le
  have q := (i.good k hk).ptr_le
  rcases a.2 with a | a
  · exact Or.inl (by omega)
  · exact Or.inr (by omega)

/-- an allocation that fits the address space obtains one block from
`operator new` and yields a pointer; any other is refused without touching
memory -/
theorem C44_allocate {isa : Isa} {M : Mem} {hs : List Held} (r : Reach isa M hs) {sz count addr : Nat}
    (l : Legal isa M hs (.alloc sz count addr)) :
    (count * sz + isa.alignment < 2 ^ 64 → ∃ p M', allocate isa sz count addr M = ok (some p, M') ∧
      M'.live = (addr, count * sz + extra isa) :: M.live) ∧
    (2 ^ 64 ≤ count * sz + isa.alignment → allocate isa sz count addr M = ok (none, M)) := by
  constructor
  · intro s
    obtain ⟨M', e, -, h⟩ := (reach_inv r).alloc l.1 s (l.2 s)
    exact ⟨_, M', e, h⟩
  · intro s
    refine if_pos ?_
    rcases Nat.lt_or_ge (max_size isa sz) count with c | c
    · exact c
    · have := (le_max_size (isa := isa) (count := count) l.1).1 c
      unfold Sane at this
      omega

/-- `deallocate` gives back to `operator delete` exactly the block that
`operator new` returned for that pointer -/
theorem C44_deallocate {isa : Isa} {M : Mem} {hs : List Held} (r : Reach isa M hs) {h : Held} (hh : h ∈ hs) :
    ∃ M' size, deallocate isa h.ptr M = ok M' ∧ (h.addr, size) ∈ M.live ∧
      M'.live = M.live.erase (h.addr, size) ∧ M'.byte = M.byte := by
  have i := reach_inv r
  obtain ⟨M', e, -, l, m⟩ := i.free hh
  refine ⟨M', _, e, m, l, ?_⟩
  have d : ∀ p, opDelete p M = ok M' → M'.byte = M.byte := by
    intro p e
    unfold opDelete at e
    split at e
    · cases e; rfl
    · split at e
      · cases e; rfl
      · cases e
  unfold deallocate at e
  split at e
  · exact d _ e
  · split at e
    · cases e; rfl
    · unfold rdByte at e
      split at e
      · exact d _ e
      · cases e

/-- releasing the null pointer, as the destructor of a moved-from vector does,
has no effect -/
theorem C44_null (isa : Isa) (M : Mem) : deallocate isa 0 M = ok M := by
  unfold deallocate opDelete
  by_cases h : isa = .none
  · rw [if_pos h]; rfl
  · rw [if_neg h]; rfl

/-- what was given back is all that was obtained -/
theorem C44_no_leak {isa : Isa} {M : Mem} (r : Reach isa M []) : M.live = [] := (reach_inv r).live

/-- no action changes the bytes in a range that is held before and after it,
except the byte the client writes -/
theorem C44_contents {isa : Isa} {M M' : Mem} {hs hs' : List Held} {a : Act} (r : Reach isa M hs)
    (l : Legal isa M hs a) (e : act isa M hs a = ok (M', hs')) {h : Held} (hh : h ∈ hs) {x : Nat}
    (h1 : h.ptr ≤ x) (h2 : x < h.ptr + h.len) (ha : ∀ y, a ≠ .write x y) : M'.byte x = M.byte x := by
  have i := reach_inv r
  have p := (i.good h hh).ptr_le
  cases a with
  | alloc sz count addr =>
    by_cases s : Sane isa sz count
    · obtain ⟨M1, e1, i1, l1⟩ := i.alloc l.1 s (l.2 s)
      rw [act, e1, ok_bind] at e
      simp only [Except.ok.injEq, Prod.mk.injEq] at e
      obtain ⟨rfl, rfl⟩ := e
      have aw := (l.2 s).2.2 (blk isa h) (by rw [i.live]; exact List.mem_map_of_mem hh)
      have aw2 : addr + (count * sz + extra isa) ≤ h.addr ∨ h.addr + (h.len + extra isa) ≤ addr := aw.2
      unfold allocate at e1
      split at e1
      · cases e1
      · split at e1
        · simp only [Except.ok.injEq, Prod.mk.injEq] at e1
          rw [← e1.2]; rfl
        · rename_i hi
          have q := Nat.mod_lt addr (alignment_pos isa)
          have ex : extra isa = isa.alignment := if_neg hi
          revert e1
          simp only [cassert]
          split
          · rw [ok_bind]
            split
            · rw [ok_bind, wrByte]
              split
              · intro e1
                rw [ok_bind] at e1
                simp only [Except.ok.injEq, Prod.mk.injEq] at e1
                rw [← e1.2]
                exact if_neg (by omega)
              · intro e1; cases e1
            · intro e1; cases e1
          · intro e1; cases e1
    · have : max_size isa sz < count := by
        rw [← le_max_size l.1] at s; omega
      rw [act, allocate, if_pos this, ok_bind] at e
      simp only [Except.ok.injEq, Prod.mk.injEq] at e
      rw [← e.1]
  | write q y =>
    have : x ≠ q := fun c => ha y (by rw [c])
    rw [act, wrByte] at e
    split at e
    · rw [ok_bind] at e
      simp only [Except.ok.injEq, Prod.mk.injEq] at e
      rw [← e.1]
      exact if_neg this
    · cases e
  | free k =>
    obtain ⟨M1, -, e1, -, -, b⟩ := C44_deallocate r (h := k) l
    rw [act, e1, ok_bind] at e
    simp only [Except.ok.injEq, Prod.mk.injEq] at e
    rw [← e.1, b]

/-! ## A concrete history

AVX2: ten 4-byte elements at an address `operator new` chose 16 bytes past an
aligned one, then three 8-byte elements just behind it; a write; the release of
the first. -/

/-- an empty memory -/
def memA : Mem := ⟨[], fun _ => 0⟩

example : Legal .avx memA [] (.alloc 4 10 1040) := ⟨by decide, fun _ => ⟨by decide, by decide, by
  intro b h; exact absurd h (by simp [memA])⟩⟩

theorem histA : ∃ M hs, Reach .avx M hs ∧ hs = [⟨1056, 40, 1040⟩] := by
  have r : Reach .avx memA [] := .start _ rfl
  have l : Legal .avx memA [] (.alloc 4 10 1040) := ⟨by decide, fun _ => ⟨by decide, by decide, by
    intro b h; exact absurd h (by simp [memA])⟩⟩
  obtain ⟨M', e, -, -⟩ := (reach_inv r).alloc l.1 (by unfold Sane; decide) (l.2 (by unfold Sane; decide))
  exact ⟨M', _, r.next l (by rw [act, e, ok_bind]; rfl), rfl⟩

example : ∃ M hs, Reach .avx M hs ∧ Legal .avx M hs (.write 1060 7) ∧
    Legal .avx M hs (.alloc 8 3 1112) ∧ Legal .avx M hs (.free ⟨1056, 40, 1040⟩) := by
  obtain ⟨M, hs, r, rfl⟩ := histA
  refine ⟨M, _, r, ⟨_, List.mem_singleton_self _, by decide, by decide⟩, ⟨by decide, fun _ => ⟨by decide, by decide, ?_⟩⟩,
    List.mem_singleton_self _⟩
  intro b hb
  rw [(reach_inv r).live, List.map_cons, List.map_nil, List.mem_singleton] at hb
  subst hb
  exact ⟨by decide, Or.inr (by decide)⟩

end Quad.Alloc
