import Verif.Lemmas.Vec

/-!
# C43: vectors, slices, views and zero-extended vectors

`Plain H o`: `o` is a vector or a slice in memory `H`; its element `i` is the
cell `o.at' i` (`C43_get`).  The member functions change exactly the cells of
the elements they announce (`Effect`).

What fails, with the theorem that shows it:
* functions that work on `mem` ignore the mapping of a `View`
  (`C43_view_fill_misplaced`) and run past the memory of a `ZeroExtended`
  vector (`C43_zero_ext_undefined`);
* `copy` takes what lies behind a `Slice` for its elements
  (`C43_copy_slice_overruns`, `C43_copy_n_slice_not_zero`);
* a `Slice` moved towards the end and back has lost elements
  (`C43_set_map_shrinks`); `View::set_len` checks the old length
  (`C43_view_set_len_unchecked`); `swap` does not check its indices
  (`C43_swap_unchecked`).
The theorems with the suffix `_partial` therefore exclude these cases.
-/

namespace Quad.Vec

open Obj

/-! ## Construction and access -/

/-- a new vector: `n` elements in memory of its own; nothing else changes -/
theorem C43_new (junk : Nat → Nat) (H : Heap) (n : Nat) :
    Plain (new junk H n).1 (new junk H n).2 ∧ (new junk H n).2.get_n = n ∧
    (∀ i, ((new junk H n).2.at' i).1 = H.size) ∧
    ∀ a, a.1 < H.size → cell (new junk H n).1 a = cell H a := by
  have s : (gt (H.push (fresh junk n)) H.size).size = n := by
    have : gt (H.push (fresh junk n)) H.size = fresh junk n := by
      unfold gt; simp
    rw [this]
    simp [fresh]
  refine ⟨⟨Or.inl ⟨_, rfl⟩, ?_, Nat.le_refl _, ?_⟩, rfl, fun _ => rfl, ?_⟩
  · show H.size < (H.push _).size
    simp
  · show 0 + n ≤ (gt (H.push (fresh junk n)) H.size).size
    omega
  · intro a ha
    unfold cell
    have : gt (new junk H n).1 a.1 = gt H a.1 := by
      show gt (H.push _) a.1 = _
      unfold gt
      simp [Array.getElem?_push, ha, Nat.ne_of_lt ha]
    rw [this]

/-- `get(i)` is the element, in memory `H`, at the `i`-th cell; an index
outside the announced range fails the assertion -/
theorem C43_get {H : Heap} {o : Obj} (h : Plain H o) (i : Nat) :
    (i < o.get_n → o.get H i = ok (cell H (o.at' i))) ∧
    (o.get_n ≤ i → o.get H i = .error .assertFail) := by
  rw [h.get_n]
  refine ⟨h.get, fun hi => ?_⟩
  have : ¬ i < o.base.n := by omega
  rcases h.cls with ⟨w, rfl⟩ | ⟨w, l, k, rfl⟩ <;>
  · simp only [Obj.get, cassert, decide_eq_false (show ¬ i < w.n from this)]
    rfl

/-- `set(i, x)` changes element `i` only -/
theorem C43_set {H : Heap} {o : Obj} (h : Plain H o) {i : Nat} (x : Nat) (hi : i < o.get_n) :
    ∃ H', o.set H i x = ok H' ∧ Shape H H' ∧ ∀ a, cell H' a = if a = o.at' i then x else cell H a := by
  rw [h.get_n] at hi
  exact h.set hi

/-- `Vector(rn, n, mem, mem_len)` shows the `n` elements at `mem`; it does not
own them: a copy of it, made with the copy constructor, shares them -/
theorem C43_wrap (junk : Nat → Nat) {H : Heap} {n mem_len : Nat} {mem : Ptr} (hb : mem.blk < H.size)
    (hl : n ≤ mem_len) (hr : mem.off + mem_len ≤ (gt H mem.blk).size) :
    Plain H (wrapMem n mem mem_len) ∧ (wrapMem n mem mem_len).get_n = n ∧
    (∀ i, (wrapMem n mem mem_len).at' i = (mem.blk, mem.off + i)) ∧
    (wrapMem n mem mem_len).get_mem_len = mem_len ∧
    copyOf junk H (wrapMem n mem mem_len) = ok (H, wrapMem n mem mem_len) :=
  ⟨⟨Or.inl ⟨_, rfl⟩, hb, hl, hr⟩, rfl, fun _ => rfl, rfl, rfl⟩

/-- a vector built from a list of values holds them -/
theorem C43_of_list (junk : Nat → Nat) (H : Heap) (values : Array Nat) :
    ∃ H' o, ofList junk H values = ok (H', o) ∧ Plain H' o ∧ o.get_n = values.size ∧
      (∀ i, i < values.size → o.get H' i = ok (gt values i)) ∧ ∀ a, a.1 < H.size → cell H' a = cell H a := by
  obtain ⟨p, n, b, f⟩ := C43_new junk H values.size
  have hh : Has (new junk H values.size).1 (new junk H values.size).2.base.mem values.size := p.has
  obtain ⟨H', e, ef⟩ := fill_effect hh (fun i => gt values i)
  have e' : forN values.size (new junk H values.size).1 (fun i H' => do
      let x ← rd values i
      (new junk H values.size).2.get_mem.wr H' i x) = forN values.size (new junk H values.size).1
        (fun i H' => (new junk H values.size).2.base.mem.wr H' i (gt values i)) := by
    have : ∀ k, k ≤ values.size → forN k (new junk H values.size).1 (fun i H' => do
      let x ← rd values i
      (new junk H values.size).2.get_mem.wr H' i x) = forN k (new junk H values.size).1
        (fun i H' => (new junk H values.size).2.base.mem.wr H' i (gt values i)) := by
      intro k
      induction k with
      | zero => intro _; rfl
      | succ k ih =>
        intro hk
        rw [forN, forN, ih (by omega)]
        congr 1
        funext H'
        rw [rd_gt (by omega), ok_bind]
        rfl
    exact this _ (Nat.le_refl _)
  have pl := p.shape ef.shape
  refine ⟨H', (new junk H values.size).2, ?_, pl, n, ?_, ?_⟩
  · show (forN values.size (new junk H values.size).1 (fun i H' => do
      let x ← rd values i
      (new junk H values.size).2.get_mem.wr H' i x) >>= _) = _
    rw [e', e, ok_bind]
    rfl
  · intro i hi
    rw [pl.get hi]
    exact congrArg ok (ef.elems i hi)
  · intro a ha
    rw [ef.frame, f a ha]
    intro i hi q
    have := congrArg Prod.fst q
    have hb : ((new junk H values.size).2.base.mem.at' i).1 = H.size := rfl
    omega

/-- the copy constructor: a vector that owns its memory is copied to new memory, with
the same elements; one that wraps memory is not copied, the new object shares it -/
theorem C43_copy_constructor (junk : Nat → Nat) {H : Heap} {o : Obj} (h : Plain H o) :
    (o.base.new_mem = false → copyOf junk H o = ok (H, .vector o.base)) ∧
    (o.base.new_mem = true → ∃ H' c, copyOf junk H o = ok (H', c) ∧ Plain H' c ∧ c.get_n = o.get_n ∧
      (∀ i, (c.at' i).1 = H.size) ∧ (∀ i, i < o.get_n → c.get H' i = o.get H i) ∧
      ∀ a, a.1 < H.size → cell H' a = cell H a) := by
  constructor
  · intro hf
    unfold copyOf
    simp only [hf]
    rfl
  · intro ht
    obtain ⟨p, n, b, f⟩ := C43_new junk H o.base.mem_len
    have sh : Has (H.push (fresh junk o.base.mem_len)) o.base.mem o.base.mem_len := by
      refine ⟨by have := h.blk; simp; omega, ?_⟩
      have : gt (H.push (fresh junk o.base.mem_len)) o.base.mem.blk = gt H o.base.mem.blk := by
        unfold gt
        simp [Array.getElem?_push, h.blk, Nat.ne_of_lt h.blk]
      rw [this]
      exact h.room
    have hd : Has (H.push (fresh junk o.base.mem_len)) ⟨H.size, 0⟩ o.base.mem_len := p.has
    obtain ⟨H', e, ef⟩ := copy_n_effect hd sh (Or.inl (Nat.ne_of_gt h.blk))
    refine ⟨H', .vector { o.base with mem := ⟨H.size, 0⟩ }, ?_, ?_, ?_, fun _ => rfl, ?_, ?_⟩
    · unfold copyOf
      simp only [ht, if_true]
      rw [e, ok_bind]
    · have hh := hd.shape ef.shape
      exact ⟨Or.inl ⟨_, rfl⟩, hh.1, h.len, hh.2⟩
    · exact h.get_n.symm
    · intro i hi
      have hi' : i < o.base.n := by rw [← h.get_n]; exact hi
      have hh := hd.shape ef.shape
      have pl : Plain H' (.vector { o.base with mem := ⟨H.size, 0⟩ }) := ⟨Or.inl ⟨_, rfl⟩, hh.1, h.len, hh.2⟩
      rw [pl.get hi', h.get hi']
      refine congrArg ok ((ef.elems i (Nat.lt_of_lt_of_le hi' h.len)).trans ?_)
      exact f _ h.blk
    · intro a ha
      rw [ef.frame]
      · exact f a ha
      · intro i hi q
        have := congrArg Prod.fst q
        have hb : ((⟨H.size, 0⟩ : Ptr).at' i).1 = H.size := rfl
        omega

/-! ## Slices -/

/-- `Slice(vec, n, offset)`: the elements `offset`, `offset + 1`, … of `vec`, at
most `n` of them -/
theorem C43_slice {H : Heap} {vec : Obj} (h : Plain H vec) (n : Nat) {offset : Nat} (ho : offset ≤ vec.get_n) :
    ∃ s, mkSlice H vec n offset = ok s ∧ Plain H s ∧ s.get_n = min n (vec.get_n - offset) ∧
      (∀ i, s.at' i = vec.at' (offset + i)) ∧
      ∀ i, i < s.get_n → s.get H i = vec.get H (offset + i) := by
  have hn := h.get_n
  have hl := h.len
  rw [hn] at ho
  have ml : (if vec.get_mem_len > offset then vec.get_mem_len - offset else 0) = vec.base.mem_len - offset := by
    show (if vec.base.mem_len > offset then vec.base.mem_len - offset else 0) = _
    split <;> omega
  have pl : Plain H (.slice ⟨min n (vec.get_n - offset), ⟨vec.base.mem.blk, vec.base.mem.off + offset⟩,
      vec.base.mem_len - offset, false⟩ ⟨vec.base.mem.blk, vec.base.mem.off + offset⟩ vec.get_n offset) := by
    refine ⟨Or.inr ⟨_, _, _, rfl⟩, h.blk, ?_, ?_⟩
    · show min n (vec.get_n - offset) ≤ vec.base.mem_len - offset
      omega
    · have := h.room
      show vec.base.mem.off + offset + (vec.base.mem_len - offset) ≤ (gt H vec.base.mem.blk).size
      omega
  refine ⟨_, ?_, pl, rfl, fun i => ?_, fun i hi => ?_⟩
  · unfold mkSlice
    simp only [ml, sliceLen_eq]
    rw [show vec.get_mem = vec.base.mem from rfl, add_ok h.hasMem (show offset ≤ vec.base.mem_len by omega), ok_bind]
  · exact at_add _ _ _
  · have hi' : i < min n (vec.get_n - offset) := hi
    rw [pl.get hi, h.get (by omega)]
    exact congrArg (fun a => ok (cell H a)) (at_add _ _ _)

/-- `set_map(offset)` of a slice: as many elements as it had, fewer if the
vector has no more from `offset` on -/
theorem C43_set_map {H : Heap} {vec s : Obj} (h : Plain H vec) {n offset : Nat} (ho : offset ≤ vec.get_n)
    (hs : mkSlice H vec n offset = ok s) {off2 : Nat} (h2 : off2 ≤ vec.get_n) :
    ∃ s', sliceMap H s off2 = ok s' ∧ Plain H s' ∧ s'.get_n = min s.get_n (vec.get_n - off2) ∧
      (∀ i, s'.at' i = vec.at' (off2 + i)) ∧ ∀ i, i < s'.get_n → s'.get H i = vec.get H (off2 + i) := by
  have hn := h.get_n
  have hl := h.len
  rw [hn] at ho h2
  rw [mkSlice, show vec.get_mem = vec.base.mem from rfl, add_ok h.hasMem (show offset ≤ vec.base.mem_len by omega),
    ok_bind] at hs
  cases hs
  have pl : Plain H (.slice ⟨min (sliceLen n offset vec.get_n) (vec.get_n - off2),
      ⟨vec.base.mem.blk, vec.base.mem.off + off2⟩, min (sliceLen n offset vec.get_n) (vec.get_n - off2), false⟩
      ⟨vec.base.mem.blk, vec.base.mem.off + off2⟩ vec.get_n off2) := by
    refine ⟨Or.inr ⟨_, _, _, rfl⟩, h.blk, Nat.le_refl _, ?_⟩
    have := h.room
    show vec.base.mem.off + off2 + min _ (vec.get_n - off2) ≤ (gt H vec.base.mem.blk).size
    omega
  refine ⟨_, ?_, pl, rfl, fun i => at_add _ _ _, fun i hi => ?_⟩
  · simp only [sliceMap, sliceLen_eq]
    rw [if_neg (by omega), show vec.base.mem.off + offset - offset = vec.base.mem.off by omega,
      show (⟨vec.base.mem.blk, vec.base.mem.off⟩ : Ptr) = vec.base.mem from rfl,
      add_ok h.hasMem (show off2 ≤ vec.base.mem_len by omega)]
    rfl
  · have hi' : i < min (sliceLen n offset vec.get_n) (vec.get_n - off2) := hi
    rw [pl.get hi, h.get (by omega)]
    exact congrArg (fun a => ok (cell H a)) (at_add _ _ _)

/-! ## Element-wise operations on vectors and slices -/

/-- `zero_fill()` -/
theorem C43_zero_fill {H : Heap} {o : Obj} (h : Plain H o) :
    ∃ H', o.zero_fill H = ok H' ∧ Effect H H' o.get_n o.at' (fun _ => 0) := by
  rw [h.get_n]
  exact h.shows.zero_fill (at_inj _ _)

/-- `fill(val)` -/
theorem C43_fill_partial {H : Heap} {o : Obj} (h : Plain H o) (val : Nat) :
    ∃ H', o.fill H val = ok H' ∧ Effect H H' o.get_n o.at' (fun _ => val) := by
  rw [h.get_n]
  exact fill_effect h.has (fun _ => val)

/-- `mul_scalar(a)` -/
theorem C43_mul_scalar (F : GF) {H : Heap} {o : Obj} (h : Plain H o) (a : Nat) :
    ∃ H', o.mul_scalar F H a = ok H' ∧
      Effect H H' o.get_n o.at' (fun i => F.mul (cell H (o.at' i)) a) := by
  rw [h.get_n]
  exact h.shows.mul_scalar F a (at_inj _ _)

/-- `mul_beta(beta)`: element `i ≥ 1` is multiplied by `beta^i` -/
theorem C43_mul_beta_partial (F : GF) {H : Heap} {o : Obj} (h : Plain H o) (beta : Nat) :
    ∃ H', o.mul_beta F H beta = ok H' ∧
      Effect H H' o.get_n o.at' (fun i => if i = 0 then cell H (o.at' 0)
        else F.mul (cell H (o.at' i)) (powBy F beta (i - 1))) := by
  rw [h.get_n]
  exact mul_beta_effect F beta h

/-- `neg()` -/
theorem C43_neg_partial (F : GF) {H : Heap} {o : Obj} (h : Plain H o) :
    ∃ H', o.neg F H = ok H' ∧ Effect H H' o.get_n o.at' (fun i => F.neg (cell H (o.at' i))) := by
  rw [h.get_n]
  exact map_effect h.has F.neg

/-- `hadamard_mul(v)`; `v` may be the same vector -/
theorem C43_hadamard_mul_partial (F : GF) {H : Heap} {o v : Obj} (h : Plain H o) (hv : Plain H v)
    (hn : o.get_n = v.get_n) (hc : Clear o.base.mem v.base.mem v.get_n) :
    ∃ H', o.hadamard_mul F H v = ok H' ∧
      Effect H H' o.get_n o.at' (fun i => F.mul (cell H (o.at' i)) (cell H (v.at' i))) := by
  rw [h.get_n, hv.get_n] at *
  unfold hadamard_mul
  simp only [hv.get_n, cassert, decide_eq_true hn, if_true, ok_bind]
  exact zip_effect h.has (by rw [hn]; exact hv.has) (by rw [hn]; exact hc) F.mul

/-- `add(v)`; `v` may be the same vector -/
theorem C43_add_partial (F : GF) {H : Heap} {o v : Obj} (h : Plain H o) (hv : Plain H v)
    (hn : o.get_n = v.get_n) (hc : Clear o.base.mem v.base.mem v.get_n) :
    ∃ H', o.add F H v = ok H' ∧
      Effect H H' o.get_n o.at' (fun i => F.add (cell H (o.at' i)) (cell H (v.at' i))) := by
  rw [h.get_n, hv.get_n] at *
  unfold Obj.add
  simp only [hv.get_n, cassert, decide_eq_true hn, if_true, ok_bind]
  exact zip_effect h.has (by rw [hn]; exact hv.has) (by rw [hn]; exact hc) F.add

/-- vectors of different lengths are refused -/
theorem C43_lengths_refused (F : GF) {H : Heap} {o v : Obj} (h : Plain H o) (hn : o.get_n ≠ v.get_n) :
    o.add F H v = .error .assertFail ∧ o.hadamard_mul F H v = .error .assertFail := by
  rw [h.get_n] at hn
  unfold Obj.add hadamard_mul
  simp only [cassert, decide_eq_false hn]
  exact ⟨rfl, rfl⟩

/-- addition of the first `len` elements of `v` to the elements from `offset` on:
`add(v, offset)`, `add_mutual(v)`, `add_mutual(v, offset)` with `len` the length of
`v`, and `add_mutual(v, offset, len)` -/
theorem C43_add_at_partial (F : GF) {H : Heap} {o v : Obj} (h : Plain H o) (hv : Plain H v) {offset len : Nat}
    (hl : len ≤ v.get_n) (hn : len + offset ≤ o.get_n)
    (hc : Clear ⟨o.base.mem.blk, o.base.mem.off + offset⟩ v.base.mem len) :
    ∃ H', o.add_mutualLen F H v offset len = ok H' ∧
      (len = v.get_n → o.addAt F H v offset = ok H' ∧ o.add_mutualAt F H v offset = ok H' ∧
        (offset = 0 → o.add_mutual F H v = ok H')) ∧
      Effect H H' len (fun i => o.at' (offset + i))
        (fun i => F.add (cell H (o.at' (offset + i))) (cell H (v.at' i))) := by
  rw [h.get_n] at hn
  have hvn := hv.get_n
  have hon := h.get_n
  obtain ⟨H', e, ef⟩ := zip_effect (h.has.add (k := offset) (m := len) (by omega))
    (hv.has.mono (show len ≤ v.base.n by omega)) hc F.add
  have ad := add_ok h.has (show offset ≤ o.base.n by omega)
  refine ⟨H', ?_, ?_, ?_⟩
  · unfold add_mutualLen
    simp only [cassert, decide_eq_true (show len = 0 ∨ o.base.n ≥ len + offset from Or.inr hn),
      decide_eq_true (show v.get_n ≥ len from hl), if_true, ok_bind]
    rw [ad, ok_bind]
    exact e
  · rintro rfl
    refine ⟨?_, ?_, ?_⟩
    · unfold addAt
      simp only [cassert, decide_eq_true (show o.base.n ≥ v.get_n + offset from hn), if_true, ok_bind]
      rw [ad, ok_bind]
      exact e
    · unfold add_mutualAt
      simp only [cassert, decide_eq_true (show v.get_n = 0 ∨ o.base.n ≥ v.get_n + offset from Or.inr hn), if_true,
        ok_bind]
      rw [ad, ok_bind]
      exact e
    · rintro rfl
      unfold add_mutual
      simp only [cassert, decide_eq_true (show o.base.n ≥ v.get_n by omega), if_true, ok_bind]
      exact e
  · refine ⟨ef.shape, fun i hi => ?_, fun a ha => ef.frame a (fun i hi q => ha i hi ?_)⟩
    · have := ef.elems i hi
      rw [at_add] at this
      exact this
    · rw [at_add] at q; exact q

/-- `copy(v)` from a vector without memory behind its elements -/
theorem C43_copy_partial {H : Heap} {o v : Obj} (h : Plain H o) (hv : Plain H v)
    (hm : v.base.mem_len = v.get_n) (hn : v.get_n ≤ o.get_n) (hc : Clear o.base.mem v.base.mem v.get_n) :
    ∃ H', o.copy H v = ok H' ∧ Effect H H' v.get_n o.at' (fun i => cell H (v.at' i)) := by
  have hon := h.get_n
  have hl := h.len
  unfold Obj.copy
  simp only [cassert, decide_eq_true (show v.get_mem_len ≤ o.base.mem_len from by
    show v.base.mem_len ≤ _; omega), if_true, ok_bind]
  rw [show v.get_mem_len = v.get_n from hm]
  exact copy_n_effect (h.has.mono (by omega)) (by rw [← hm]; exact hv.hasMem) hc

/-- `copy(v, n)`, `copy(v, n, offset)` and `copy(v, n, offset, src_offset)`: `n`
elements of `v` from `src_offset` on, or zeros where `v` has no more, become the
elements from `offset` on.  `v` has no memory behind its elements, unless these
suffice; it can also be a `ZeroExtended` vector, see `C43_copy_zero_ext`. -/
theorem C43_copy_n_partial {H : Heap} {o v : Obj} (h : Plain H o) (hv : Plain H v) {n offset src : Nat}
    (hm : v.base.mem_len = v.get_n ∨ src + n ≤ v.get_n) (hs : src ≤ v.get_n) (hn : n + offset ≤ o.get_n)
    (hc : Clear ⟨o.base.mem.blk, o.base.mem.off + offset⟩ ⟨v.base.mem.blk, v.base.mem.off + src⟩ n) :
    ∃ H', o.copyFrom H v n offset src = ok H' ∧ (src = 0 → o.copyAt H v n offset = ok H' ∧
        (offset = 0 → o.copyN H v n = ok H')) ∧
      Effect H H' n (fun i => o.at' (offset + i))
        (fun i => if src + i < v.get_n then cell H (v.at' (src + i)) else 0) := by
  have hvn := hv.get_n
  have hon := h.get_n
  have hol := h.len
  have hvl := hv.len
  obtain ⟨H', e, ef⟩ := copyZ_effect (l := v.base.mem_len - src) (h.has.add (k := offset) (m := n) (by omega))
    (hv.hasMem.add (k := src) (by omega)) hc
  have ad := add_ok h.has (show offset ≤ o.base.n by omega)
  refine ⟨H', ?_, ?_, ?_⟩
  · unfold copyFrom
    simp only [cassert, decide_eq_true (show n + offset ≤ o.base.mem_len by omega), if_true, ok_bind]
    rw [ad, ok_bind, show v.get_mem = v.base.mem from rfl, add_ok hv.hasMem (by omega), ok_bind, if_neg (by
      show ¬ v.base.mem_len < src; omega)]
    exact e
  · rintro rfl
    constructor
    · unfold copyAt
      simp only [cassert, decide_eq_true (show n + offset ≤ o.base.mem_len by omega), if_true, ok_bind]
      rw [ad, ok_bind]
      exact e
    · rintro rfl
      unfold copyN
      simp only [cassert, decide_eq_true (show n ≤ o.base.mem_len by omega), if_true, ok_bind]
      exact e
  · refine ⟨ef.shape, fun i hi => ?_, fun a ha => ef.frame a (fun i hi q => ha i hi ?_)⟩
    · have := ef.elems i hi
      rw [at_add] at this
      refine this.trans ?_
      by_cases q : src + i < v.get_n
      · rw [if_pos q, if_pos (by omega), at_add]; rfl
      · rw [if_neg q, if_neg (by omega)]
    · rw [at_add] at q; exact q

/-- `==` holds exactly for equal lengths and equal elements, for vectors of any
class that can be read -/
theorem C43_eq {H : Heap} {l r : Obj} {f g : Nat → Nat}
    (hl : ∀ i, i < l.base.n → l.get H i = ok (f i)) (hr : ∀ i, i < r.base.n → r.get H i = ok (g i)) :
    ∃ b, eq H l r = ok b ∧ (b = true ↔ l.base.n = r.base.n ∧ ∀ i, i < l.base.n → f i = g i) := by
  unfold Obj.eq
  by_cases q : l.base.n = r.base.n
  · rw [if_neg (fun c => c q)]
    obtain ⟨b, e, hb⟩ := eqFrom_eq (H := H) (l := l) (r := r) (f := f) (g := g) l.base.n 0
      (fun j _ h2 => ⟨hl j (by omega), hr j (by omega)⟩)
    refine ⟨b, e, hb.trans ⟨fun a => ⟨q, fun i hi => a i (by omega) (by omega)⟩, fun a j _ h2 => a.2 j (by omega)⟩⟩
  · rw [if_pos q]
    exact ⟨false, rfl, fun c => (by cases c), fun a => absurd a.1 q⟩

/-- `sort()` puts the elements in non-decreasing order -/
theorem C43_sort_partial {H : Heap} {o : Obj} (h : Plain H o) :
    ∃ H', o.sort H = ok H' ∧ ∃ s : List Nat,
      s.Perm ((List.range o.get_n).map (fun i => cell H (o.at' i))) ∧ s.Pairwise (· ≤ ·) ∧
      Effect H H' o.get_n o.at' (fun i => s.getD i 0) := by
  rw [h.get_n]
  unfold Obj.sort
  rw [load_eq h.has, ok_bind]
  have pm := List.mergeSort_perm ((List.range o.base.n).map (fun i => cell H (o.base.mem.at' i)))
    (fun x y => decide (x ≤ y))
  have so := List.pairwise_mergeSort (le := fun x y : Nat => decide (x ≤ y))
    (fun a b c h1 h2 => by simp only [decide_eq_true_eq] at *; omega)
    (fun a b => by simp only [Bool.or_eq_true, decide_eq_true_eq]; omega)
    ((List.range o.base.n).map (fun i => cell H (o.base.mem.at' i)))
  simp only [] at pm so ⊢
  generalize hg : ((List.range o.base.n).map (fun i => cell H (o.base.mem.at' i))).mergeSort
    (fun x y => decide (x ≤ y)) = s at *
  have hlen : s.length = o.base.n := by
    rw [pm.length_eq]; simp
  obtain ⟨H', e, ef⟩ := fill_effect h.has (fun i => s.getD i 0)
  refine ⟨H', ?_, s, pm, so.imp (fun h => of_decide_eq_true h), ef⟩
  rw [← e]
  have : ∀ k, k ≤ o.base.n → forN k H (fun i H => do
      let x ← rd s.toArray i
      o.base.mem.wr H i x) = forN k H (fun i H => o.base.mem.wr H i (s.getD i 0)) := by
    intro k
    induction k with
    | zero => intro _; rfl
    | succ k ih =>
      intro hk
      rw [forN, forN, ih (by omega)]
      congr 1
      funext H1
      have hk' : k < s.length := by omega
      simp [rd, hk', List.getD]
  exact this _ (Nat.le_refl _)

/-- `swap(i, j)` exchanges two elements -/
theorem C43_swap_partial {H : Heap} {o : Obj} (h : Plain H o) {i j : Nat} (hi : i < o.get_n) (hj : j < o.get_n) :
    ∃ H', o.swap H i j = ok H' ∧ Effect H H' o.get_n o.at' (fun k =>
      if k = j then cell H (o.at' i) else if k = i then cell H (o.at' j) else cell H (o.at' k)) := by
  rw [h.get_n] at *
  unfold Obj.swap
  have vi := h.has.valid hi
  have vj := h.has.valid hj
  rw [rd_cell vi, ok_bind, rd_cell vj, ok_bind]
  obtain ⟨H1, e1, p1⟩ := wr_put vi (x := cell H (o.base.mem.at' j))
  obtain ⟨H2, e2, p2⟩ := wr_put (p1.1.valid vj) (x := cell H (o.base.mem.at' i))
  rw [e1, ok_bind, e2]
  have inj : ∀ a b, o.base.mem.at' a = o.base.mem.at' b → a = b := by
    intro a b q
    have : o.base.mem.off + a = o.base.mem.off + b := congrArg Prod.snd q
    omega
  refine ⟨H2, rfl, p1.1.trans p2.1, fun k hk => ?_, fun a ha => ?_⟩
  · show cell H2 (o.base.mem.at' k) = _
    rw [p2.2, p1.2]
    by_cases q : k = j
    · rw [if_pos q, if_pos (by rw [q])]; rfl
    · rw [if_neg q, if_neg (fun c => q (inj _ _ c))]
      by_cases q2 : k = i
      · rw [if_pos q2, if_pos (by rw [q2])]; rfl
      · rw [if_neg q2, if_neg (fun c => q2 (inj _ _ c))]; rfl
  · rw [p2.2, p1.2, if_neg (fun c => ha j hj c.symm), if_neg (fun c => ha i hi c.symm)]

/-! ## Zero-extended vectors -/

/-- the elements of `ZeroExtended(vec, n)`: those of `vec`, then zeros -/
theorem C43_zero_ext_get {H : Heap} {vec : Obj} (h : Plain H vec) (n : Nat) :
    (mkZeroExt vec n).get_n = n ∧
    ∀ i, i < n → (mkZeroExt vec n).get H i = ok (if i < vec.get_n then cell H (vec.at' i) else 0) := by
  refine ⟨rfl, fun i hi => ?_⟩
  simp only [mkZeroExt, Obj.get, cassert, decide_eq_true hi, if_true, ok_bind]
  by_cases q : i < vec.get_n
  · rw [if_pos q, if_pos q, (C43_get h i).1 q]
  · rw [if_neg q, if_neg q]

/-- copying the `n` elements of a zero-extended vector of a vector without
memory behind its elements -/
theorem C43_copy_zero_ext {H : Heap} {o vec : Obj} (h : Plain H o) (hv : Plain H vec) (n : Nat)
    (hm : vec.base.mem_len = vec.get_n) (hn : n ≤ o.get_n) (hc : Clear o.base.mem vec.base.mem n) :
    ∃ H', o.copyN H (mkZeroExt vec n) n = ok H' ∧
      Effect H H' n o.at' (fun i => if i < vec.get_n then cell H (vec.at' i) else 0) := by
  have hon := h.get_n
  have hol := h.len
  obtain ⟨H', e, ef⟩ := copyZ_effect (l := vec.base.mem_len) (h.has.mono (show n ≤ o.base.n by omega)) hv.hasMem hc
  refine ⟨H', ?_, ?_⟩
  · unfold copyN
    simp only [cassert, decide_eq_true (show n ≤ o.base.mem_len by omega), if_true, ok_bind]
    exact e
  · rw [hm] at ef
    exact ef

/-- for a zero-extended vector longer than the memory of the vector it extends,
`fill`, `neg`, `zero_fill`, and `add` or `hadamard_mul` with it as operand, leave that
memory: undefined behaviour -/
theorem C43_zero_ext_undefined (F : GF) {H : Heap} {vec : Obj} (h : Plain H vec) {n : Nat}
    (ho : vec.base.mem.off + vec.base.n = (gt H vec.base.mem.blk).size) (hn : vec.get_n < n) :
    (∀ x, (mkZeroExt vec n).fill H x = ub) ∧ (mkZeroExt vec n).neg F H = ub ∧ (mkZeroExt vec n).zero_fill H = ub ∧
    ∀ o, Plain H o → o.get_n = n → Clear o.base.mem vec.base.mem n →
      o.add F H (mkZeroExt vec n) = ub ∧ o.hadamard_mul F H (mkZeroExt vec n) = ub := by
  rw [h.get_n] at hn
  have out : ∀ H1, Shape H H1 → ∀ i, vec.base.n ≤ i → ∀ x, vec.base.mem.rd H1 i = ub ∧ vec.base.mem.wr H1 i x = ub := by
    intro H1 s i hi x
    have hb : vec.base.mem.blk < H1.size := by rw [s.1]; exact h.blk
    have hs : (gt H1 vec.base.mem.blk).size ≤ vec.base.mem.off + i := by rw [s.2]; omega
    constructor
    · unfold Ptr.rd Heap.rdEl
      rw [rd_gt hb, ok_bind]
      simp [rd, Array.getElem?_eq_none hs]
    · unfold Ptr.wr Heap.wrEl
      rw [rd_gt hb, ok_bind, wr, if_neg (by omega)]
      rfl
  have stop : ∀ body : Nat → Heap → Res Heap, (∃ H1, forN vec.base.n H body = ok H1 ∧ Shape H H1) →
      (∀ H1, Shape H H1 → body vec.base.n H1 = ub) → forN n H body = ub := by
    rintro body ⟨H1, e, s⟩ hb
    have : ∀ k, forN (vec.base.n + 1 + k) H body = ub := by
      intro k
      induction k with
      | zero => rw [Nat.add_zero, forN, e, ok_bind, hb H1 s]
      | succ k ih => rw [← Nat.add_assoc, forN, ih]; rfl
    have := this (n - vec.base.n - 1)
    rwa [show vec.base.n + 1 + (n - vec.base.n - 1) = n by omega] at this
  refine ⟨fun x => ?_, ?_, ?_, fun o po hon hc => ?_⟩
  · refine stop _ ?_ (fun H1 s => (out H1 s _ (Nat.le_refl _) x).2)
    obtain ⟨H1, e, ef⟩ := fill_effect h.has (fun _ => x)
    exact ⟨H1, e, ef.shape⟩
  · refine stop _ ?_ (fun H1 s => ?_)
    · obtain ⟨H1, e, ef⟩ := map_effect h.has F.neg
      exact ⟨H1, e, ef.shape⟩
    · show (vec.base.mem.rd H1 _ >>= _) = ub
      rw [(out H1 s _ (Nat.le_refl _) 0).1]
      rfl
  · refine stop _ ?_ (fun H1 s => ?_)
    · obtain ⟨H1, e, ef⟩ := forN_effect (H := H) (body := fun i H => (mkZeroExt vec n).set H i 0) (f := fun _ => 0)
        (at_inj vec.base.mem vec.base.n) (fun i H1 hi e => by
          simp only [mkZeroExt, Obj.set, cassert, decide_eq_true (show i < n by omega), if_true, ok_bind]
          exact wr_put (e.shape.valid (h.has.valid hi)))
      exact ⟨H1, e, ef.shape⟩
    · simp only [mkZeroExt, Obj.set, cassert, decide_eq_true (show vec.base.n < n by omega), if_true, ok_bind]
      exact (out H1 s _ (Nat.le_refl _) 0).2
  · rw [po.get_n] at hon
    have hc' : Clear o.base.mem vec.base.mem vec.base.n := by
      rcases hc with q | q | q
      · exact Or.inl q
      · exact Or.inr (Or.inl q)
      · exact Or.inr (Or.inr (by omega))
    have key : ∀ op, zipMem op H o.base.mem vec.base.mem n = ub := by
      intro op
      refine stop _ ?_ (fun H1 s => ?_)
      · obtain ⟨H1, e, ef⟩ := zip_effect (po.has.mono (show vec.base.n ≤ o.base.n by omega)) h.has hc' op
        exact ⟨H1, e, ef.shape⟩
      · rw [rd_cell (s.valid (po.has.valid (show vec.base.n < o.base.n by omega))), ok_bind,
          (out H1 s _ (Nat.le_refl _) 0).1]
        rfl
    constructor
    · unfold Obj.add
      simp only [cassert, decide_eq_true (show o.base.n = (mkZeroExt vec n).get_n from hon), if_true, ok_bind]
      rw [hon]
      exact key _
    · unfold hadamard_mul
      simp only [cassert, decide_eq_true (show o.base.n = (mkZeroExt vec n).get_n from hon), if_true, ok_bind]
      rw [hon]
      exact key _

/-! ## Views -/

/-- `View(vec, n, offset, step)`: element `i` is element `(offset + step * i) % N`
of `vec`, which has `N` elements -/
theorem C43_view {H : Heap} {vec : Obj} {n : Nat} (offset step : Nat) (hn : n ≤ vec.get_n)
    (h0 : 0 < vec.get_n) :
    ∃ w, mkView vec n offset step = ok w ∧ w.get_n = n ∧
      (∀ i, i < n → w.get H i = vec.get H ((offset + step * i) % vec.get_n)) ∧
      ∀ i x, i < n → w.set H i x = vec.set H ((offset + step * i) % vec.get_n) x := by
  refine ⟨.view ⟨n, vec.get_mem, vec.get_mem_len, false⟩ vec offset step vec.get_n, ?_, rfl, fun i hi => ?_,
    fun i x hi => ?_⟩
  · simp only [mkView, cassert, decide_eq_true hn, if_true, ok_bind]
  · simp only [Obj.get, cassert, decide_eq_true hi, if_true, ok_bind]
    rw [if_neg (by omega)]
  · simp only [Obj.set, cassert, decide_eq_true hi, if_true, ok_bind]
    rw [if_neg (by omega)]

/-- the member functions that use `get` and `set` act on the elements of the
view, provided these are distinct elements of `vec` -/
theorem C43_view_virtual (F : GF) {H : Heap} {vec w : Obj} (h : Plain H vec) {n offset step : Nat}
    (hn : n ≤ vec.get_n) (h0 : 0 < vec.get_n) (hw : mkView vec n offset step = ok w)
    (inj : ∀ i j, i < j → j < n → (offset + step * i) % vec.get_n ≠ (offset + step * j) % vec.get_n) :
    (∃ H', w.zero_fill H = ok H' ∧
      Effect H H' n (fun i => vec.at' ((offset + step * i) % vec.get_n)) (fun _ => 0)) ∧
    ∀ a, ∃ H', w.mul_scalar F H a = ok H' ∧
      Effect H H' n (fun i => vec.at' ((offset + step * i) % vec.get_n))
        (fun i => F.mul (cell H (vec.at' ((offset + step * i) % vec.get_n))) a) := by
  simp only [mkView, cassert, decide_eq_true hn, if_true, ok_bind, Except.ok.injEq] at hw
  subst hw
  have s := (h.get_n ▸ h.shows : Shows H vec vec.get_n vec.at').view h0
    ⟨n, vec.get_mem, vec.get_mem_len, false⟩ offset step
  have inj' : ∀ i j, i < j → j < n →
      vec.at' ((offset + step * i) % vec.get_n) ≠ vec.at' ((offset + step * j) % vec.get_n) := by
    intro i j hij hj q
    have : vec.base.mem.off + (offset + step * i) % vec.get_n = vec.base.mem.off + (offset + step * j) % vec.get_n :=
      congrArg Prod.snd q
    exact inj i j hij hj (by omega)
  exact ⟨s.zero_fill inj', fun a => s.mul_scalar F a inj'⟩

/-- `fill` (like `neg`, `mul_beta`, `add`, `copy`, `hadamard_mul`, `sort` and `swap`, which
use `mem`) called on a view acts on the first `n` elements of the vector
instead of those of the view -/
theorem C43_view_fill_misplaced {H : Heap} {vec w : Obj} (h : Plain H vec) {n offset step : Nat}
    (hn : n ≤ vec.get_n) (hw : mkView vec n offset step = ok w) (x : Nat) :
    ∃ H', w.fill H x = ok H' ∧ Effect H H' n vec.at' (fun _ => x) := by
  simp only [mkView, cassert, decide_eq_true hn, if_true, ok_bind, Except.ok.injEq] at hw
  subst hw
  exact fill_effect (h.has.mono (by rw [h.get_n] at hn; exact hn)) (fun _ => x)

/-- `set_map` and `set_vec` of a view: it then shows the elements
`(offset + step * i) % N` of the new vector, or is refused when the new vector
is shorter than the view -/
theorem C43_view_remap {H : Heap} {vec vec2 w : Obj} {n offset step : Nat} (hn : n ≤ vec.get_n)
    (hw : mkView vec n offset step = ok w) (offset2 step2 : Nat) :
    (0 < vec.get_n → (viewMap w offset2 step2).get_n = n ∧
      (∀ i, i < n → (viewMap w offset2 step2).get H i = vec.get H ((offset2 + step2 * i) % vec.get_n)) ∧
      ∀ i x, i < n → (viewMap w offset2 step2).set H i x = vec.set H ((offset2 + step2 * i) % vec.get_n) x) ∧
    (n ≤ vec2.get_n → 0 < vec2.get_n → ∃ w', viewVec w vec2 = ok w' ∧ w'.get_n = n ∧
      (∀ i, i < n → w'.get H i = vec2.get H ((offset + step * i) % vec2.get_n)) ∧
      ∀ i x, i < n → w'.set H i x = vec2.set H ((offset + step * i) % vec2.get_n) x) ∧
    (vec2.get_n < n → viewVec w vec2 = .error .assertFail) := by
  simp only [mkView, cassert, decide_eq_true hn, if_true, ok_bind, Except.ok.injEq] at hw
  subst hw
  have at' : ∀ (u : Obj) (a b : Nat) (v : Base), v.n = n → 0 < u.get_n →
      (Obj.view v u a b u.get_n).get_n = n ∧
      (∀ i, i < n → (Obj.view v u a b u.get_n).get H i = u.get H ((a + b * i) % u.get_n)) ∧
      ∀ i x, i < n → (Obj.view v u a b u.get_n).set H i x = u.set H ((a + b * i) % u.get_n) x := by
    intro u a b v hv h0
    refine ⟨hv, fun i hi => ?_, fun i x hi => ?_⟩
    · simp only [Obj.get, cassert, hv, decide_eq_true hi, if_true, ok_bind]
      rw [if_neg (by omega)]
    · simp only [Obj.set, cassert, hv, decide_eq_true hi, if_true, ok_bind]
      rw [if_neg (by omega)]
  refine ⟨fun h0 => at' vec offset2 step2 _ rfl h0, fun h2 h0 => ?_, fun h2 => ?_⟩
  · refine ⟨.view ⟨n, vec.get_mem, vec.get_mem_len, false⟩ vec2 offset step vec2.get_n, ?_, at' vec2 offset step _ rfl h0⟩
    simp only [viewVec, cassert, decide_eq_true h2, if_true, ok_bind]
  · simp only [viewVec, cassert, decide_eq_false (Nat.not_le.2 h2)]
    rfl

/-- after `set_vec`, `fill` (and the other functions that use `mem`) still
writes into the vector the view was created on, whatever the new vector -/
theorem C43_view_set_vec_fills_old {H : Heap} {vec vec2 w w' : Obj} (h : Plain H vec) {n offset step : Nat}
    (hn : n ≤ vec.get_n) (hw : mkView vec n offset step = ok w) (hv : viewVec w vec2 = ok w') (x : Nat) :
    ∃ H', w'.fill H x = ok H' ∧ Effect H H' n vec.at' (fun _ => x) := by
  simp only [mkView, cassert, decide_eq_true hn, if_true, ok_bind, Except.ok.injEq] at hw
  subst hw
  by_cases q : n ≤ vec2.get_n
  · simp only [viewVec, cassert, decide_eq_true q, if_true, ok_bind, Except.ok.injEq] at hv
    subst hv
    exact fill_effect (h.has.mono (by rw [h.get_n] at hn; exact hn)) (fun _ => x)
  · simp only [viewVec, cassert, decide_eq_false q] at hv
    cases hv

/-! ## Concrete cases -/

/-- one block of six elements -/
def heapA : Heap := #[#[10, 11, 12, 13, 14, 15], #[20, 21, 22, 23, 24, 25]]

/-- a vector on the first block -/
def vecA : Obj := .vector ⟨6, ⟨0, 0⟩, 6, false⟩

/-- a vector on the second block -/
def vecB : Obj := .vector ⟨6, ⟨1, 0⟩, 6, false⟩

theorem plainA : Plain heapA vecA := ⟨Or.inl ⟨_, rfl⟩, by decide, by decide, by decide⟩
theorem plainB : Plain heapA vecB := ⟨Or.inl ⟨_, rfl⟩, by decide, by decide, by decide⟩

example : Clear vecA.base.mem vecB.base.mem 6 := Or.inl (by decide)
example : Clear vecA.base.mem vecA.base.mem 6 := Or.inr (Or.inl (by decide))

/-- the three elements from index 1 on -/
def sliceA : Obj := .slice ⟨3, ⟨0, 1⟩, 5, false⟩ ⟨0, 1⟩ 6 1

example : mkSlice heapA vecA 3 1 = ok sliceA := by rfl
theorem plainS : Plain heapA sliceA := ⟨Or.inr ⟨_, _, _, rfl⟩, by decide, by decide, by decide⟩

/-- `copy` from a slice of three elements overwrites five elements of the
destination -/
theorem C43_copy_slice_overruns : ∃ H', vecB.copy heapA sliceA = ok H' ∧ sliceA.get_n = 3 ∧
    vecB.get heapA 3 = ok 23 ∧ vecB.get H' 3 = ok 14 ∧ vecB.get H' 4 = ok 15 :=
  ⟨#[#[10, 11, 12, 13, 14, 15], #[11, 12, 13, 14, 15, 25]], by rfl, rfl, by rfl, by rfl, by rfl⟩

/-- `copy(v, 5)` from a slice of three elements does not extend it with zeros -/
theorem C43_copy_n_slice_not_zero : ∃ H', vecB.copyN heapA sliceA 5 = ok H' ∧ sliceA.get_n = 3 ∧
    vecB.get H' 3 = ok 14 :=
  ⟨#[#[10, 11, 12, 13, 14, 15], #[11, 12, 13, 14, 15, 25]], by rfl, rfl, by rfl⟩

/-- moved to the last element and back to index 1, a slice of three elements
has one -/
theorem C43_set_map_shrinks : ∃ s1 s2, sliceMap heapA sliceA 5 = ok s1 ∧ sliceMap heapA s1 1 = ok s2 ∧
    sliceA.get_n = 3 ∧ s2.get_n = 1 := ⟨_, _, rfl, rfl, rfl, rfl⟩

/-- `set_len` accepts a length beyond the vector's: the view then shows
elements twice -/
theorem C43_view_set_len_unchecked : ∃ w w', mkView vecA 2 0 1 = ok w ∧ viewLen w 8 = ok w' ∧
    w'.get_n = 8 ∧ w'.get heapA 6 = ok 10 := ⟨_, _, rfl, rfl, rfl, rfl⟩

/-- `swap` on a slice of three elements exchanges cells behind it -/
theorem C43_swap_unchecked : ∃ H', sliceA.swap heapA 0 4 = ok H' ∧ sliceA.get_n = 3 ∧
    vecA.get heapA 5 = ok 15 ∧ vecA.get H' 5 = ok 11 :=
  ⟨#[#[10, 15, 12, 13, 14, 11], #[20, 21, 22, 23, 24, 25]], by rfl, rfl, by rfl, by rfl⟩

/-- the view of the odd elements -/
example : ∃ w, mkView vecA 3 1 2 = ok w ∧ ∀ i j, i < j → j < 3 → (1 + 2 * i) % 6 ≠ (1 + 2 * j) % 6 :=
  ⟨_, rfl, fun i j _ _ => by omega⟩

/-- a view of six elements moved to the second vector, and one refused -/
example : ∃ w w', mkView vecA 3 1 2 = ok w ∧ viewVec w vecB = ok w' ∧ w'.get heapA 1 = ok 23 ∧
    viewVec w (wrapMem 2 ⟨1, 0⟩ 2) = .error .assertFail ∧ (viewMap w 0 1).get heapA 2 = ok 12 :=
  ⟨_, _, rfl, rfl, rfl, rfl, rfl⟩

example : (⟨1, 2⟩ : Ptr).blk < heapA.size ∧ 3 ≤ 4 ∧ 2 + 4 ≤ (gt heapA 1).size := by decide

/-- filling the view of the odd elements changes the even element 2, and not
the odd element 5 -/
theorem C43_view_fill_wrong : ∃ w H', mkView vecA 3 1 2 = ok w ∧ w.fill heapA 7 = ok H' ∧
    vecA.get H' 2 = ok 7 ∧ vecA.get H' 5 = ok 15 :=
  ⟨_, #[#[7, 7, 7, 13, 14, 15], #[20, 21, 22, 23, 24, 25]], rfl, by rfl, by rfl, by rfl⟩

example : vecA.base.mem.off + vecA.base.n = (gt heapA vecA.base.mem.blk).size ∧ vecA.get_n < 8 := by decide

/-- a vector in a third block with the values 3, 1, 2 -/
example : ∃ H' o, ofList (fun _ => 0) heapA #[3, 1, 2] = ok (H', o) ∧ o.get_n = 3 :=
  let ⟨H', o, e, _, n, _⟩ := C43_of_list (fun _ => 0) heapA #[3, 1, 2]
  ⟨H', o, e, n⟩

end Quad.Vec
