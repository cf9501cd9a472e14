import Verif.Model.Life

/-! # Lemmas for the ownership of memory -/

namespace Quad.Life

/-- the block of a pointer -/
def blk : Ptr → Option Nat
  | .heap b => some b
  | _ => none

/-- blocks an object frees when it is destroyed -/
def owned : Obj → List Nat
  | .vec v => if v.new_mem then [v.mem].filterMap blk else []
  | .buf b => match b.case with
    | .full => b.mem.filterMap blk
    | .zeroExtend => [b.zeros].filterMap blk
    | _ => []

def owned? : Option Obj → List Nat
  | some o => owned o
  | none => []

def flat (l : List (Option Obj)) : List Nat := l.flatMap owned?

/-- what the constructors establish -/
def Good : Obj → Prop
  | .vec v => v.new_mem = true → ∀ a, v.mem ≠ .ext a
  | .buf b => (b.case = .full → b.mem.length = b.n ∧ ∀ p ∈ b.mem, ∃ k, p = .heap k) ∧
      (b.case = .zeroExtend → 0 < b.mem.length ∧ ∃ k, b.zeros = .heap k)

/-- the allocated blocks are those of `R`, once each -/
structure Holds (M : Mem) (R : List Nat) : Prop where
  perm : M.live.Perm R
  nodup : R.Nodup
  lt : ∀ b ∈ R, b < M.next

theorem Holds.of_perm {M : Mem} {R R' : List Nat} (h : Holds M R) (p : R.Perm R') : Holds M R' :=
  ⟨h.perm.trans p, p.nodup_iff.1 h.nodup, fun b hb => h.lt b (p.mem_iff.2 hb)⟩

theorem Holds.alloc {M : Mem} {R : List Nat} (h : Holds M R) : Holds (alloc M).2 (M.next :: R) := by
  refine ⟨h.perm.cons _, List.nodup_cons.2 ⟨fun q => ?_, h.nodup⟩, fun b hb => ?_⟩
  · have := h.lt _ q
    omega
  · show b < M.next + 1
    rcases List.mem_cons.1 hb with rfl | q
    · omega
    · have := h.lt _ q
      omega

theorem Holds.free {M : Mem} {b : Nat} {R : List Nat} (h : Holds M (b :: R)) :
    ∃ M', free (.heap b) M = .ok M' ∧ Holds M' R := by
  have hb : b ∈ M.live := h.perm.mem_iff.2 List.mem_cons_self
  refine ⟨{ M with live := M.live.erase b }, by simp [Life.free, hb], ?_, (List.nodup_cons.1 h.nodup).2,
    fun c hc => h.lt c (List.mem_cons_of_mem _ hc)⟩
  have := h.perm.erase b
  rwa [List.erase_cons_head] at this

theorem Holds.freeAll {R : List Nat} : ∀ (ps : List Ptr) {M : Mem}, (∀ p ∈ ps, ∃ k, p = .heap k) →
    Holds M (ps.filterMap blk ++ R) → ∃ M', freeAll ps M = .ok M' ∧ Holds M' R
  | [], M, _, h => ⟨M, rfl, h⟩
  | p :: ps, M, hp, h => by
      obtain ⟨k, rfl⟩ := hp p List.mem_cons_self
      obtain ⟨M1, e1, h1⟩ := Holds.free (b := k) (R := ps.filterMap blk ++ R) h
      obtain ⟨M2, e2, h2⟩ := Holds.freeAll ps (fun q hq => hp q (List.mem_cons_of_mem _ hq)) h1
      refine ⟨M2, ?_, h2⟩
      simp only [Life.freeAll, e1]
      exact e2

theorem freeAll_bad {k : Nat} : ∀ {ps : List Ptr} {M : Mem}, .heap k ∈ ps → k ∉ M.live →
    freeAll ps M = .error .badFree
  | [], _, h, _ => nomatch h
  | p :: ps, M, h, hk => by
      unfold freeAll
      cases p with
      | null =>
          rcases List.mem_cons.1 h with q | q
          · cases q
          · exact freeAll_bad q hk
      | ext a => rfl
      | heap b =>
          by_cases q : b ∈ M.live
          · rcases List.mem_cons.1 h with c | c
            · cases c
              exact absurd q hk
            · simp only [free, if_pos q]
              exact freeAll_bad c fun d => hk (List.mem_of_mem_erase d)
          · simp only [free, if_neg q]
            rfl

theorem Holds.allocN {M : Mem} {R : List Nat} (h : Holds M R) : ∀ k,
    Holds (allocN k M).2 ((allocN k M).1.filterMap blk ++ R) ∧ (allocN k M).1.length = k ∧
    ∀ p ∈ (allocN k M).1, ∃ j, p = .heap j
  | 0 => ⟨h, rfl, fun p hp => nomatch hp⟩
  | k + 1 => by
      obtain ⟨i, l, a⟩ := h.allocN k
      have e : (Life.allocN (k + 1) M) =
        ((Life.allocN k M).1 ++ [.heap (Life.allocN k M).2.next], (Life.alloc (Life.allocN k M).2).2) := rfl
      rw [e]
      refine ⟨i.alloc.of_perm ?_, by simp [l], fun p hp => ?_⟩
      · simp only [List.filterMap_append, List.append_assoc]
        exact List.perm_middle.symm
      · rcases List.mem_append.1 hp with q | q
        · exact a p q
        · exact ⟨_, List.mem_singleton.1 q⟩

/-! ## Objects -/

theorem flat_push (l : List (Option Obj)) (o : Obj) : (flat (l ++ [some o])).Perm (owned o ++ flat l) := by
  simp only [flat, List.flatMap_append, List.flatMap_cons, List.flatMap_nil, List.append_nil]
  exact List.perm_append_comm

theorem flat_at : ∀ {l : List (Option Obj)} {i : Nat} {x : Option Obj}, l[i]? = some x →
    (flat l).Perm (owned? x ++ flat (l.eraseIdx i))
  | [], i, x, h => by simp at h
  | y :: l, 0, x, h => by
      simp only [List.getElem?_cons_zero, Option.some.injEq] at h
      subst h
      exact List.Perm.refl _
  | y :: l, i + 1, x, h => by
      rw [List.getElem?_cons_succ] at h
      have := flat_at h
      simp only [List.eraseIdx_cons_succ, flat, List.flatMap_cons] at *
      refine (this.append_left (owned? y)).trans ?_
      rw [← List.append_assoc, ← List.append_assoc]
      exact List.perm_append_comm.append_right _

theorem eraseIdx_set : ∀ (l : List (Option Obj)) (i : Nat) (x : Option Obj),
    (l.set i x).eraseIdx i = l.eraseIdx i
  | [], i, x => rfl
  | y :: l, 0, x => rfl
  | y :: l, i + 1, x => by
      simp only [List.set_cons_succ, List.eraseIdx_cons_succ, eraseIdx_set l i x]

theorem flat_set {l : List (Option Obj)} {i : Nat} {y : Option Obj} (h : l[i]? = some y) (x : Option Obj) :
    (flat (l.set i x)).Perm (owned? x ++ flat (l.eraseIdx i)) := by
  have hi : i < l.length := by
    rw [List.getElem?_eq_some_iff] at h
    exact h.1
  have := flat_at (l := l.set i x) (i := i) (x := x) (by simp [hi])
  rwa [eraseIdx_set] at this

/-- the invariant -/
structure Inv (s : St) : Prop where
  holds : Holds s.mem (flat s.objs)
  good : ∀ o, some o ∈ s.objs → Good o

theorem Inv.push {s : St} (h : Inv s) {o : Obj} {M : Mem} (g : Good o) (hm : Holds M (owned o ++ flat s.objs)) :
    Inv (s.push o M) := by
  refine ⟨hm.of_perm (flat_push _ _).symm, fun p hp => ?_⟩
  rcases List.mem_append.1 hp with q | q
  · exact h.good p q
  · rw [List.mem_singleton] at q
    cases q
    exact g

theorem Inv.put {s : St} (h : Inv s) {i : Nat} {y x : Option Obj} {M : Mem} (hi : s.objs[i]? = some y)
    (g : ∀ o, x = some o → Good o) (hm : Holds M (owned? x ++ flat (s.objs.eraseIdx i))) :
    Inv (s.put i x M) := by
  refine ⟨hm.of_perm (flat_set hi x).symm, fun p hp => ?_⟩
  rcases List.mem_or_eq_of_mem_set hp with q | q
  · exact h.good p q
  · exact g p q.symm

theorem Inv.split {s : St} (h : Inv s) {i : Nat} {x : Option Obj} (hi : s.objs[i]? = some x) :
    Holds s.mem (owned? x ++ flat (s.objs.eraseIdx i)) := h.holds.of_perm (flat_at hi)

theorem getVec_ok {s : St} {i : Nat} {v : Vec} (h : s.getVec i = .ok v) : s.objs[i]? = some (some (.vec v)) := by
  unfold St.getVec at h
  split at h
  · cases h
    assumption
  · cases h

theorem getBuf_ok {s : St} {i : Nat} {b : Buf} (h : s.getBuf i = .ok b) : s.objs[i]? = some (some (.buf b)) := by
  unfold St.getBuf at h
  split at h
  · cases h
    assumption
  · cases h

theorem getVec_err {s : St} {i : Nat} {e : Fault} (h : s.getVec i = .error e) : e = .noObject := by
  unfold St.getVec at h
  split at h <;> cases h
  rfl

theorem getBuf_err {s : St} {i : Nat} {e : Fault} (h : s.getBuf i = .error e) : e = .noObject := by
  unfold St.getBuf at h
  split at h <;> cases h
  rfl

theorem Inv.goodAt {s : St} (h : Inv s) {i : Nat} {o : Obj} (hi : s.objs[i]? = some (some o)) : Good o :=
  h.good o (List.mem_of_getElem? hi)

/-! ## Operations on one object -/

/-- the operation does not free wrongly, and what it returns satisfies `P` -/
def Fine {α : Type} (r : Out α) (P : α → Prop) : Prop := (∀ a, r = .ok a → P a) ∧ r ≠ .error .badFree

theorem Fine.ok {α : Type} {a : α} {P : α → Prop} (h : P a) : Fine (.ok a) P :=
  ⟨fun b e => (by cases e; exact h), fun e => by cases e⟩

theorem Fine.bind {α β : Type} {r : Out α} {f : α → Out β} {P : α → Prop} {Q : β → Prop} (h : Fine r P)
    (k : ∀ a, P a → Fine (f a) Q) : Fine (r >>= f) Q := by
  cases r with
  | error e =>
      refine ⟨fun a q => (by cases q), fun q => h.2 ?_⟩
      cases q
      rfl
  | ok a => exact k a (h.1 a rfl)

theorem Fine.mono {α : Type} {r : Out α} {P Q : α → Prop} (h : Fine r P) (k : ∀ a, P a → Q a) : Fine r Q :=
  ⟨fun a e => k a (h.1 a e), h.2⟩

theorem Fine.err {α : Type} {e : Fault} {P : α → Prop} (h : e ≠ .badFree) : Fine (.error e) P :=
  ⟨fun a q => (by cases q), fun q => by cases q; exact h rfl⟩

theorem fine_getVec (s : St) (i : Nat) : Fine (s.getVec i) (fun v => s.objs[i]? = some (some (.vec v))) :=
  ⟨fun _ e => getVec_ok e, fun e => nomatch getVec_err e⟩

theorem fine_getBuf (s : St) (i : Nat) : Fine (s.getBuf i) (fun v => s.objs[i]? = some (some (.buf v))) :=
  ⟨fun _ e => getBuf_ok e, fun e => nomatch getBuf_err e⟩

theorem fine_readable (p : Ptr) (len : Nat) (M : Mem) : Fine (readable p len M) (fun _ => True) := by
  refine ⟨fun _ _ => trivial, fun e => ?_⟩
  unfold readable at e
  split at e
  · cases e
  · split at e
    · cases e
    · split at e <;> cases e
    · cases e

theorem fine_readAll (o : Buf) (M : Mem) : ∀ ps, Fine (o.readAll M ps) (fun _ => True)
  | [] => Fine.ok trivial
  | p :: ps => (fine_readable p o.size M).bind fun _ _ => fine_readAll o M ps

theorem Vec.fine_copy (v : Vec) {M : Mem} {R : List Nat} (h : Holds M R) (g : Good (.vec v)) :
    Fine (v.copy M) (fun r => Good (.vec r.1) ∧ Holds r.2 (owned (.vec r.1) ++ R)) := by
  unfold Vec.copy
  by_cases q : v.new_mem = true
  · rw [if_pos q]
    refine (fine_readable _ _ _).bind fun _ _ => Fine.ok ⟨fun _ a e => (by cases e), ?_⟩
    exact h.alloc
  · rw [if_neg q]
    refine Fine.ok ⟨g, ?_⟩
    simp only [owned, if_neg q]
    exact h

theorem Vec.destroy_ok (v : Vec) {M : Mem} {R : List Nat} (g : Good (.vec v)) (h : Holds M (owned (.vec v) ++ R)) :
    ∃ M', v.destroy M = .ok M' ∧ Holds M' R := by
  unfold Vec.destroy
  by_cases q : v.new_mem = true
  · rw [if_pos q]
    simp only [owned, if_pos q] at h
    cases e : v.mem with
    | null =>
        rw [e] at h
        exact ⟨_, rfl, h⟩
    | heap b =>
        rw [e] at h
        obtain ⟨M', e1, h1⟩ := Holds.free (b := b) h
        rw [e1]
        exact ⟨_, rfl, h1⟩
    | ext a => exact absurd e (g q a)
  · rw [if_neg q]
    simp only [owned, if_neg q] at h
    exact ⟨_, rfl, h⟩

theorem Vec.fine_destroy (v : Vec) {M : Mem} {R : List Nat} (g : Good (.vec v)) (h : Holds M (owned (.vec v) ++ R)) :
    Fine (v.destroy M) (fun M' => Holds M' R) := by
  obtain ⟨M', e, h'⟩ := v.destroy_ok g h
  rw [e]
  exact Fine.ok h'

theorem place_length : ∀ {map : List Nat} {ps mem mem' : List Ptr}, place map ps mem = .ok mem' →
    mem'.length = mem.length
  | [], ps, mem, mem', h => by cases h; rfl
  | j :: map, [], mem, mem', h => by cases h
  | j :: map, p :: ps, mem, mem', h => by
      unfold place at h
      split at h
      · rw [place_length h, List.length_set]
      · cases h

theorem fine_place : ∀ (map : List Nat) (ps mem : List Ptr), Fine (place map ps mem) (fun m => m.length = mem.length)
  | [], ps, mem => Fine.ok rfl
  | j :: map, [], mem => Fine.err (by decide)
  | j :: map, p :: ps, mem => by
      unfold place
      split
      · refine (fine_place map ps (mem.set j p)).mono fun m h => ?_
        rw [h, List.length_set]
      · exact Fine.err (by decide)

theorem Buf.destroy_ok (b : Buf) {M : Mem} {R : List Nat} (g : Good (.buf b)) (h : Holds M (owned (.buf b) ++ R)) :
    ∃ M', b.destroy M = .ok M' ∧ Holds M' R := by
  unfold Buf.destroy
  cases e : b.case with
  | none =>
      rw [if_neg (by simp)]
      simp only [owned, e] at h
      exact ⟨_, rfl, h⟩
  | slice =>
      simp only [owned, e] at h
      simp only [reduceCtorEq, if_false]
      split <;> exact ⟨_, rfl, h⟩
  | combined =>
      simp only [owned, e] at h
      simp only [reduceCtorEq, if_false]
      split <;> exact ⟨_, rfl, h⟩
  | zeroExtend =>
      simp only [owned, e] at h
      obtain ⟨l, k, hk⟩ := g.2 e
      rw [hk] at h
      obtain ⟨M', e1, h1⟩ := Holds.free (b := k) h
      rw [if_pos ⟨by simp, l⟩, if_neg (by simp), if_pos rfl, hk, e1]
      exact ⟨_, rfl, h1⟩
  | full =>
      simp only [owned, e] at h
      obtain ⟨l, hk⟩ := g.1 e
      obtain ⟨M', e1, h1⟩ := Holds.freeAll b.mem hk h
      by_cases q : b.mem.length > 0
      · rw [if_pos ⟨by simp, q⟩, if_pos rfl, if_neg (by omega), List.take_of_length_le (by omega), e1]
        exact ⟨_, rfl, h1⟩
      · rw [if_neg (fun c => q c.2)]
        have : b.mem = [] := List.length_eq_zero_iff.1 (by omega)
        rw [this] at h
        exact ⟨_, rfl, h⟩

theorem Buf.fine_destroy (b : Buf) {M : Mem} {R : List Nat} (g : Good (.buf b)) (h : Holds M (owned (.buf b) ++ R)) :
    Fine (b.destroy M) (fun M' => Holds M' R) := by
  obtain ⟨M', e, h'⟩ := b.destroy_ok g h
  rw [e]
  exact Fine.ok h'

theorem Buf.fine_copy (b : Buf) (n : Nat) {M : Mem} {R : List Nat} (h : Holds M R) :
    Fine (b.copy n M) (fun r => Good (.buf r.1) ∧ Holds r.2 (owned (.buf r.1) ++ R)) := by
  unfold Buf.copy
  dsimp only
  generalize (if n = 0 then b.n else n) = m
  obtain ⟨i, l, a⟩ := h.allocN m
  split
  · exact Fine.err (by decide)
  · refine (fine_readAll _ _ _).bind fun _ _ => Fine.ok ⟨⟨fun _ => ⟨l, a⟩, fun e => (by cases e)⟩, i⟩

theorem Buf.fine_slice (b : Buf) (s e : Nat) {M : Mem} {R : List Nat} (h : Holds M R) :
    Fine (b.slice s e M) (fun r => Good (.buf r.1) ∧ Holds r.2 (owned (.buf r.1) ++ R)) := by
  unfold Buf.slice
  dsimp only
  split
  · exact Fine.err (by decide)
  split
  · split
    · exact Fine.err (by decide)
    · exact Fine.ok ⟨⟨fun q => (by cases q), fun q => by cases q⟩, h⟩
  · split
    · exact Fine.err (by decide)
    · refine Fine.ok ⟨⟨fun q => (by cases q), fun _ => ⟨?_, _, rfl⟩⟩, h.alloc⟩
      simp only [List.length_append, List.length_replicate]
      omega

theorem Buf.fine_shuffle (b : Buf) (map : List Nat) (n : Nat) {M : Mem} {R : List Nat} (h : Holds M R) :
    Fine (b.shuffle map n M) (fun r => Good (.buf r.1) ∧ Holds r.2 (owned (.buf r.1) ++ R)) := by
  unfold Buf.shuffle
  dsimp only
  split
  · exact Fine.err (by decide)
  split
  · exact (fine_place _ _ _).bind fun m _ => Fine.ok ⟨⟨fun q => (by cases q), fun q => by cases q⟩, h⟩
  · refine (fine_place _ _ _).bind fun m hm => Fine.ok ⟨⟨fun q => (by cases q), fun _ => ⟨?_, _, rfl⟩⟩, h.alloc⟩
    rw [hm, List.length_replicate]
    omega

theorem set_set_perm {l : List Ptr} {i j : Nat} {p q : Ptr} (hi : l[i]? = some p) (hj : l[j]? = some q) :
    ((l.set i q).set j p).Perm l := by
  obtain ⟨h1, e1⟩ := List.getElem?_eq_some_iff.1 hi
  obtain ⟨h2, e2⟩ := List.getElem?_eq_some_iff.1 hj
  subst e1 e2
  exact List.set_set_perm h1 h2

end Quad.Life
