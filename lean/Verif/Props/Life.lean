import Verif.Lemmas.Life
import Verif.Spec.Life

/-!
# C50: memory is freed once, by its owner

Histories of any length, with any number of `Vector` and `Buffers` objects.
-/

namespace Quad.Life

theorem step_fine {s : St} (h : Inv s) {op : Op} (ha : ∀ i j, op ≠ .bufAssign i j)
    (hs : ∀ i k p, op ≠ .bufSet i k p) : Fine (step s op) Inv := by
  cases op with
  | vecNew n mem l =>
      refine Fine.ok ?_
      cases mem with
      | null => exact h.push (fun _ a e => by cases e) h.holds.alloc
      | heap b => exact h.push (fun e => by cases e) h.holds
      | ext a => exact h.push (fun e => by cases e) h.holds
  | vecCopy i =>
      exact (fine_getVec s i).bind fun v hv => (v.fine_copy h.holds (h.goodAt hv)).bind fun r hr =>
        Fine.ok (h.push hr.1 hr.2)
  | vecMove i =>
      refine (fine_getVec s i).bind fun v hv => Fine.ok ?_
      have e : owned? (some (.vec v.move.2)) = [] := by
        show (if v.new_mem = true then List.filterMap blk [Ptr.null] else []) = []
        split <;> rfl
      refine ⟨(h.split hv).of_perm (((flat_set hv _).trans ?_).append_left (owned (.vec v)) |>.symm.trans
        (flat_push _ _).symm), fun o ho => ?_⟩
      · rw [e]
        exact List.Perm.refl _
      · rcases List.mem_append.1 ho with q | q
        · rcases List.mem_or_eq_of_mem_set q with q | q
          · exact h.good o q
          · cases q
            exact fun _ a q => by cases q
        · rw [List.mem_singleton] at q
          cases q
          exact h.goodAt hv
  | vecAssign i j =>
      refine (fine_getVec s i).bind fun v hv => (fine_getVec s j).bind fun w hw => ?_
      refine Fine.bind (P := fun r : Vec × Mem => Good (.vec r.1) ∧
        Holds r.2 (owned (.vec r.1) ++ flat (s.objs.eraseIdx i))) ?_ fun r hr => Fine.ok ?_
      · refine (w.fine_copy h.holds (h.goodAt hw)).bind fun r hr => ?_
        refine (v.fine_destroy (R := owned (.vec r.1) ++ flat (s.objs.eraseIdx i)) (h.goodAt hv) ?_).bind
          fun M hM => Fine.ok ⟨hr.1, hM⟩
        refine hr.2.of_perm (((flat_at hv).append_left _).trans ?_)
        rw [← List.append_assoc, ← List.append_assoc]
        exact List.perm_append_comm.append_right _
      · exact h.put hv (fun o e => by cases e; exact hr.1) hr.2
  | vecSwap i j =>
      refine (fine_getVec s i).bind fun v hv => (fine_getVec s j).bind fun w hw => Fine.ok ?_
      have gv := h.goodAt hv
      have gw := h.goodAt hw
      refine ⟨?_, fun o ho => ?_⟩
      · refine h.holds.of_perm ?_
        show (flat s.objs).Perm (flat ((s.objs.set i (some (.vec w))).set j (some (.vec v))))
        refine List.Perm.flatMap_right _ ?_
        obtain ⟨h1, e1⟩ := List.getElem?_eq_some_iff.1 hv
        obtain ⟨h2, e2⟩ := List.getElem?_eq_some_iff.1 hw
        rw [← e1, ← e2]
        exact (List.set_set_perm h1 h2).symm
      · rcases List.mem_or_eq_of_mem_set ho with q | q
        · rcases List.mem_or_eq_of_mem_set q with q | q
          · exact h.good o q
          · cases q
            exact gw
        · cases q
          exact gv
  | vecDestroy i =>
      refine (fine_getVec s i).bind fun v hv => (v.fine_destroy (h.goodAt hv) (h.split hv)).bind fun M hM => Fine.ok ?_
      exact h.put hv (fun o e => by cases e) hM
  | bufNew n size =>
      obtain ⟨a, l, g⟩ := h.holds.allocN n
      exact Fine.ok (h.push ⟨fun _ => ⟨l, g⟩, fun e => by cases e⟩ a)
  | bufOfMem n size mem => exact Fine.ok (h.push ⟨fun e => (by cases e), fun e => by cases e⟩ h.holds)
  | bufCopy i n =>
      exact (fine_getBuf s i).bind fun v _ => (v.fine_copy n h.holds).bind fun r hr => Fine.ok (h.push hr.1 hr.2)
  | bufSlice i a e =>
      exact (fine_getBuf s i).bind fun v _ => (v.fine_slice a e h.holds).bind fun r hr => Fine.ok (h.push hr.1 hr.2)
  | bufCat i j =>
      refine (fine_getBuf s i).bind fun v _ => (fine_getBuf s j).bind fun w _ => ?_
      refine Fine.bind (P := fun b : Buf => b.case = .combined) ?_ fun b hb => Fine.ok (h.push ?_ ?_)
      · unfold Buf.cat
        split
        · exact Fine.err (by decide)
        · exact Fine.ok rfl
      · exact ⟨fun e => (by rw [hb] at e; cases e), fun e => by rw [hb] at e; cases e⟩
      · simp only [owned, hb]
        exact h.holds
  | bufShuffle i map n =>
      exact (fine_getBuf s i).bind fun v _ => (v.fine_shuffle map n h.holds).bind fun r hr => Fine.ok (h.push hr.1 hr.2)
  | bufSwap i a b =>
      refine (fine_getBuf s i).bind fun v hv => ?_
      refine Fine.bind (P := fun o : Buf => ∃ m : List Ptr, m.Perm v.mem ∧ o = { v with mem := m }) ?_ fun o ho => ?_
      · unfold Buf.swap
        split
        · exact Fine.ok ⟨_, set_set_perm (by assumption) (by assumption), rfl⟩
        · exact Fine.err (by decide)
      · obtain ⟨m, hm, rfl⟩ := ho
        have g := h.goodAt hv
        refine Fine.ok (h.put hv (fun o e => ?_) ?_)
        · cases e
          refine ⟨fun e => ⟨hm.length_eq.trans (g.1 e).1, fun p hp => (g.1 e).2 p (hm.mem_iff.1 hp)⟩, fun e => ⟨?_, (g.2 e).2⟩⟩
          rw [hm.length_eq]
          exact (g.2 e).1
        · refine (h.split hv).of_perm (List.Perm.append_right _ ?_)
          simp only [owned?, owned]
          cases v.case with
          | full => exact (hm.filterMap blk).symm
          | _ => exact List.Perm.refl _
  | bufAssign i j => exact absurd rfl (ha i j)
  | bufSet i k p => exact absurd rfl (hs i k p)
  | bufDestroy i =>
      refine (fine_getBuf s i).bind fun v hv => (v.fine_destroy (h.goodAt hv) (h.split hv)).bind fun M hM => Fine.ok ?_
      exact h.put hv (fun o e => by cases e) hM

theorem run_fine : ∀ (ops : List Op) {s : St}, Inv s → Plain ops → Fine (run s ops) Inv
  | [], _, h, _ => Fine.ok h
  | op :: ops, _, h, hp => (step_fine h (hp op List.mem_cons_self).1 (hp op List.mem_cons_self).2).bind fun _ h1 =>
      run_fine ops h1 fun o ho => hp o (List.mem_cons_of_mem _ ho)

theorem inv_init : Inv St.init :=
  ⟨⟨List.Perm.refl _, List.nodup_nil, fun b hb => by cases hb⟩, fun o ho => by cases ho⟩

theorem owns_iff {o : Obj} {b : Nat} : Owns o b ↔ b ∈ owned o := by
  have hb : ∀ p : Ptr, blk p = some b ↔ p = .heap b := by
    intro p
    cases p <;> simp [blk]
  cases o with
  | vec v =>
      by_cases q : v.new_mem = true
      · simp [Owns, owned, q, List.mem_filterMap, hb]
      · simp [Owns, owned, q]
  | buf v => cases e : v.case <;> simp [Owns, owned, e, List.mem_filterMap, hb]

/-- no program frees a block twice, or memory that was not allocated -/
theorem C50_no_double_free_partial {ops : List Op} (hp : Plain ops) : run St.init ops ≠ .error .badFree :=
  (run_fine ops inv_init hp).2

theorem mem_flat {l : List (Option Obj)} {b : Nat} :
    b ∈ flat l ↔ ∃ (i : Nat) (o : Obj), l[i]? = some (some o) ∧ Owns o b := by
  simp only [flat, List.mem_flatMap]
  constructor
  · rintro ⟨x, hx, hb⟩
    cases x with
    | none => cases hb
    | some o =>
        obtain ⟨i, hi⟩ := List.mem_iff_getElem?.1 hx
        exact ⟨i, o, hi, owns_iff.2 hb⟩
  · rintro ⟨i, o, hi, hb⟩
    exact ⟨some o, List.mem_of_getElem? hi, owns_iff.1 hb⟩

/-- at any point of any program, the allocated blocks are those that an existing
object owns, and no block has two owners; so nothing is lost, and what an object
owns stays allocated until it is destroyed -/
theorem C50_owners_partial {ops : List Op} (hp : Plain ops) {s : St} (h : run St.init ops = .ok s) :
    s.mem.live.Nodup ∧
    (∀ b, b ∈ s.mem.live ↔ ∃ i o, s.has i o ∧ Owns o b) ∧
    ∀ i j o o' b, s.has i o → s.has j o' → Owns o b → Owns o' b → i = j := by
  have hi := (run_fine ops inv_init hp).1 s h
  refine ⟨hi.holds.perm.nodup_iff.2 hi.holds.nodup, fun b => ?_, fun i j o o' b h1 h2 o1 o2 => ?_⟩
  · rw [hi.holds.perm.mem_iff, mem_flat]
    exact Iff.rfl
  · by_contra q
    have hj : (s.objs.eraseIdx i)[if j < i then j else j - 1]? = some (some o') := by
      rw [List.getElem?_eraseIdx]
      by_cases c : j < i
      · simp only [if_pos c]
        exact h2
      · simp only [if_neg c]
        rw [if_neg (by omega), show j - 1 + 1 = j by omega]
        exact h2
    have := (hi.split h1).nodup
    rw [List.nodup_append] at this
    exact this.2.2 b (owns_iff.1 o1) b (mem_flat.2 ⟨_, _, hj, o2⟩) rfl

/-- when every object has been destroyed, all the memory has been freed -/
theorem C50_no_leak_partial {ops : List Op} (hp : Plain ops) {s : St} (h : run St.init ops = .ok s)
    (hd : ∀ i o, ¬ s.has i o) : s.mem.live = [] := by
  obtain ⟨_, hl, _⟩ := C50_owners_partial hp h
  refine List.eq_nil_iff_forall_not_mem.2 fun b hb => ?_
  obtain ⟨i, o, hi, _⟩ := (hl b).1 hb
  exact hd i o hi

theorem getVec_has {s : St} {i : Nat} {v : Vec} (h : s.has i (.vec v)) : s.getVec i = .ok v := by
  unfold St.getVec
  rw [show s.objs[i]? = _ from h]

theorem getBuf_has {s : St} {i : Nat} {v : Buf} (h : s.has i (.buf v)) : s.getBuf i = .ok v := by
  unfold St.getBuf
  rw [show s.objs[i]? = _ from h]

theorem out_bind {α β : Type} (a : α) (f : α → Out β) : ((Except.ok a : Out α) >>= f) = f a := rfl

/-- the destruction of an existing object always succeeds -/
theorem C50_destroy_partial {ops : List Op} (hp : Plain ops) {s : St} (h : run St.init ops = .ok s) (i : Nat) :
    (∀ v, s.has i (.vec v) → ∃ s', step s (.vecDestroy i) = .ok s') ∧
    ∀ b, s.has i (.buf b) → ∃ s', step s (.bufDestroy i) = .ok s' := by
  have hi := (run_fine ops inv_init hp).1 s h
  constructor
  · intro v hv
    obtain ⟨M, e, _⟩ := v.destroy_ok (hi.goodAt hv) (hi.split hv)
    exact ⟨_, by simp only [step, getVec_has hv, e, out_bind]; rfl⟩
  · intro b hb
    obtain ⟨M, e, _⟩ := b.destroy_ok (hi.goodAt hb) (hi.split hb)
    exact ⟨_, by simp only [step, getBuf_has hb, e, out_bind]; rfl⟩

/-! ## What goes wrong otherwise -/

/-- one `Buffers` that owns memory assigned to another (the class declares no
assignment operator): at the end of both lives, its blocks are freed twice -/
theorem C50_assign_frees_twice {ops : List Op} (hp : Plain ops) {s : St} (h : run St.init ops = .ok s)
    {i j : Nat} {a b : Buf} (ha : s.has i (.buf a)) (hb : s.has j (.buf b)) (hij : i ≠ j) {k : Nat}
    (ho : Owns (.buf b) k) :
    run s [.bufAssign i j, .bufDestroy i, .bufDestroy j] = .error .badFree := by
  have hi := (run_fine ops inv_init hp).1 s h
  obtain ⟨M, e, hM⟩ := b.destroy_ok (hi.goodAt hb) (hi.split hb)
  have hk : k ∉ M.live := by
    intro q
    have nd := (hi.split hb).nodup
    rw [List.nodup_append] at nd
    exact nd.2.2 k (owns_iff.1 ho) k (hM.perm.mem_iff.1 q) rfl
  have li : i < s.objs.length := (List.getElem?_eq_some_iff.1 ha).1
  have h1 : (s.put i (some (.buf b)) s.mem).has i (.buf b) := by
    simp [St.has, St.put, li]
  have h2 : ((s.put i (some (.buf b)) s.mem).put i none M).has j (.buf b) := by
    simp only [St.has, St.put]
    rw [List.getElem?_set_ne hij, List.getElem?_set_ne hij]
    exact hb
  have twice : b.destroy M = .error .badFree := by
    have g := hi.goodAt hb
    unfold Buf.destroy
    rcases ho with ⟨c, hm⟩ | ⟨c, hz⟩
    · have l0 : b.mem.length > 0 := List.length_pos_of_mem hm
      rw [if_pos ⟨by simp [c], l0⟩, if_pos c, if_neg (by rw [(g.1 c).1]; omega),
        List.take_of_length_le (Nat.le_of_eq (g.1 c).1)]
      exact freeAll_bad hm hk
    · rw [if_pos ⟨by simp [c], (g.2 c).1⟩, if_neg (by simp [c]), if_pos c, hz]
      simp [free, hk]
  have s1 : step s (.bufAssign i j) = .ok (s.put i (some (.buf b)) s.mem) := by
    simp only [step, getBuf_has ha, getBuf_has hb, out_bind]
    rfl
  have s2 : step (s.put i (some (.buf b)) s.mem) (.bufDestroy i) =
      .ok ((s.put i (some (.buf b)) s.mem).put i none M) := by
    simp only [step, getBuf_has h1, out_bind]
    rw [show (s.put i (some (.buf b)) s.mem).mem = s.mem from rfl, e]
    rfl
  have s3 : step ((s.put i (some (.buf b)) s.mem).put i none M) (.bufDestroy j) = .error .badFree := by
    simp only [step, getBuf_has h2, out_bind]
    rw [show ((s.put i (some (.buf b)) s.mem).put i none M).mem = M from rfl, twice]
    rfl
  simp only [run, s1, s2, s3, out_bind]
  rfl

/-- and the blocks of the `Buffers` assigned to, if it owns some, are lost:
allocated, without an owner -/
theorem C50_assign_leaks {ops : List Op} (hp : Plain ops) {s : St} (h : run St.init ops = .ok s)
    {i j : Nat} {a b : Buf} (ha : s.has i (.buf a)) (hb : s.has j (.buf b)) (hij : i ≠ j) {k : Nat}
    (ho : Owns (.buf a) k) :
    ∃ s', step s (.bufAssign i j) = .ok s' ∧ k ∈ s'.mem.live ∧ ∀ l o, s'.has l o → ¬ Owns o k := by
  obtain ⟨_, hl, hu⟩ := C50_owners_partial hp h
  refine ⟨s.put i (some (.buf b)) s.mem, ?_, (hl k).2 ⟨i, _, ha, ho⟩, fun l o hlo hk => ?_⟩
  · simp only [step, getBuf_has ha, getBuf_has hb, out_bind]
    rfl
  · simp only [St.has, St.put] at hlo
    by_cases q : i = l
    · subst q
      have li : i < s.objs.length := (List.getElem?_eq_some_iff.1 ha).1
      rw [List.getElem?_set_self li] at hlo
      cases hlo
      exact hij (hu i j _ _ k ha hb ho hk)
    · rw [List.getElem?_set_ne q] at hlo
      exact q (hu i l _ _ k ha hlo ho hk)

/-- `set` on a `Buffers` that holds the caller's memory frees that memory: the
caller's `Buffers`, or memory that was never allocated -/
theorem C50_set_frees_callers_memory :
    run St.init [.bufNew 2 4, .bufOfMem 2 4 [.heap 0, .heap 1], .bufSet 1 0 .null, .bufDestroy 0] =
      .error .badFree ∧
    (∀ n size a (ps : List Ptr) p, 0 < n →
      run St.init [.bufOfMem n size (.ext a :: ps), .bufSet 0 0 p] = .error .badFree) := by
  refine ⟨by rfl, fun n size a ps p hn => ?_⟩
  have h : (Buf.ofMem n size (.ext a :: ps)).set 0 p ⟨[], 0⟩ = .error .badFree := by
    unfold Buf.set
    rw [if_neg (fun c => c hn)]
    rfl
  have g : (St.init.push (.buf (Buf.ofMem n size (.ext a :: ps))) ⟨[], 0⟩).getBuf 0 =
      .ok (Buf.ofMem n size (.ext a :: ps)) := rfl
  have e : step (St.init.push (.buf (Buf.ofMem n size (.ext a :: ps))) ⟨[], 0⟩) (.bufSet 0 0 p) =
      .error .badFree := by
    simp only [step, g, out_bind]
    rw [show (St.init.push (.buf (Buf.ofMem n size (.ext a :: ps))) ⟨[], 0⟩).mem = ⟨[], 0⟩ from rfl, h]
    rfl
  have r : step St.init (.bufOfMem n size (.ext a :: ps)) =
      .ok (St.init.push (.buf (Buf.ofMem n size (.ext a :: ps))) ⟨[], 0⟩) := rfl
  simp only [run, r, out_bind, e]
  rfl

/-- `set` on a `Buffers` that owns its memory loses the buffer it replaces, and
frees the new one, which is the caller's, in the end -/
theorem C50_set_leaks :
    (∃ s, run St.init [.bufNew 2 4, .bufSet 0 0 .null, .bufDestroy 0] = .ok s ∧
      s.mem.live = [0] ∧ ∀ i o, ¬ s.has i o) ∧
    run St.init [.bufNew 2 4, .bufSet 0 0 (.ext 7), .bufDestroy 0] = .error .badFree := by
  refine ⟨⟨_, rfl, rfl, fun i o h => ?_⟩, by rfl⟩
  cases i with
  | zero => cases h
  | succ i => cases h

/-- a vector that has been moved from says that it still has its elements, and
cannot be copied; it can be destroyed and assigned to -/
theorem C50_moved_from {v : Vec} (hv : v.new_mem = true) (hn : 0 < v.mem_len) (M : Mem) :
    v.move.2.n = v.n ∧ v.move.2.copy M = .error .badRead ∧ v.move.2.destroy M = .ok M ∧
    ∀ w, v.move.2.assign w M = w.copy M := by
  refine ⟨rfl, ?_, ?_, fun w => ?_⟩
  · unfold Vec.copy
    rw [if_pos (by exact hv)]
    have h : readable v.move.2.mem v.move.2.mem_len (alloc M).2 = .error .badRead := by
      unfold readable
      rw [if_neg (show ¬ v.move.2.mem_len = 0 from Nat.pos_iff_ne_zero.1 hn)]
      rfl
    simp only [h]
    rfl
  · unfold Vec.destroy
    rw [if_pos (by exact hv)]
    rfl
  · unfold Vec.assign
    cases w.copy M with
    | error e => rfl
    | ok r =>
        simp only [out_bind, Vec.destroy]
        rw [if_pos (by exact hv)]
        rfl

/-- a plain copy of a `Buffers` says that its memory has length 0 -/
theorem C50_copy_mem_len {b : Buf} {M : Mem} {c : Buf} {M' : Mem} (h : b.copy 0 M = .ok (c, M')) :
    c.n = b.n ∧ c.size = b.size ∧ c.mem_len = 0 := by
  unfold Buf.copy at h
  rw [if_pos rfl] at h
  dsimp only at h
  split at h
  · cases h
  · cases e : b.readAll (allocN b.n M).2 (b.mem.take (min b.n b.n)) with
    | error x =>
        rw [e] at h
        cases h
    | ok u =>
        rw [e] at h
        cases h
        exact ⟨rfl, rfl, Nat.zero_mul _⟩

/-! ## Concrete cases -/

/-- two vectors, a copy, a move, an assignment, and buffers with a deep copy, a
slice with zeros and a concatenation; all destroyed at the end -/
def story : List Op :=
  [.vecNew 4 .null 0, .vecCopy 0, .vecMove 0, .vecAssign 0 1, .vecNew 2 (.heap 0) 4, .vecSwap 2 3,
   .bufNew 3 8, .bufCopy 4 0, .bufSlice 4 1 5, .bufCat 4 5, .bufShuffle 4 [3, 1] 4, .bufSwap 5 0 2,
   .bufOfMem 1 8 [.ext 5],
   .bufDestroy 4, .vecDestroy 2, .bufDestroy 5, .vecDestroy 0, .bufDestroy 8, .bufDestroy 7, .bufDestroy 9,
   .vecDestroy 1, .bufDestroy 6, .vecDestroy 3]

example : Plain story := by
  intro op h
  simp only [story, List.mem_cons, List.not_mem_nil, or_false] at h
  rcases h with rfl | rfl | rfl | rfl | rfl | rfl | rfl | rfl | rfl | rfl | rfl | rfl | rfl | rfl | rfl | rfl |
    rfl | rfl | rfl | rfl | rfl | rfl | rfl <;>
  exact ⟨fun i j e => (by cases e), fun i k p e => (by cases e)⟩

/-- it runs to the end, and everything has been freed -/
example : ∃ s, run St.init story = .ok s ∧ s.mem.live = [] ∧ s.mem.next = 11 := ⟨_, rfl, rfl, rfl⟩

/-- two `Buffers` that own memory -/
example : ∃ s a b, run St.init [.bufNew 2 4, .bufNew 1 4] = .ok s ∧ s.has 0 (.buf a) ∧ s.has 1 (.buf b) ∧
    Owns (.buf a) 0 ∧ Owns (.buf b) 2 :=
  ⟨_, _, _, rfl, rfl, rfl, Or.inl ⟨rfl, by decide⟩, Or.inl ⟨rfl, by decide⟩⟩

example : ∃ c M', (Buf.ofMem 1 4 [.ext 0]).copy 0 ⟨[], 0⟩ = .ok (c, M') := ⟨_, _, rfl⟩

end Quad.Life
