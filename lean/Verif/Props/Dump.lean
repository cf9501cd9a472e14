import Verif.Lemmas.Dump
import Verif.Props.Vec

/-!
# C69: dumps show exactly the contents
-/

namespace Quad.Props
open Quad Spec Vec Dump

/-- C69: `dump` of a vector of any class, every element of which can be read, shows the elements `get` gives, in order -/
theorem C69_vector {b : Nat} (mem : Nat → Nat) {H : Heap} {o : Obj} (hn : o.get_n = o.base.n) {f : Nat → Nat}
    (hg : ∀ i, i < o.get_n → o.get H i = .ok (f i)) (hf : ∀ i, i < o.get_n → f i < 2 ^ b) :
    Dump.vector b mem H o = .ok (vecText b ((List.range o.get_n).map f)) := by
  unfold Dump.vector
  rw [forN_append (fun i => elemText b (f i) ++ chars " ")
    (fun i s hi => by
      rw [hg i (by omega), ok_bind, put_ok mem (hf i (by omega)), ok_bind]; rfl), ok_bind, hn]
  unfold vecText
  rw [List.map_map, ← List.flatMap_def, List.append_assoc]
  rfl

/-- C69: the dump of a vector determines its length and its elements -/
theorem C69_vector_injective {b : Nat} (mem mem' : Nat → Nat) {H H' : Heap} {o o' : Obj} (hn : o.get_n = o.base.n)
    (hn' : o'.get_n = o'.base.n) {f f' : Nat → Nat} (hg : ∀ i, i < o.get_n → o.get H i = .ok (f i))
    (hg' : ∀ i, i < o'.get_n → o'.get H' i = .ok (f' i)) (hf : ∀ i, i < o.get_n → f i < 2 ^ b)
    (hf' : ∀ i, i < o'.get_n → f' i < 2 ^ b) (h : Dump.vector b mem H o = Dump.vector b mem' H' o') :
    o.get_n = o'.get_n ∧ ∀ i, i < o.get_n → o.get H i = o'.get H' i := by
  rw [C69_vector mem hn hg hf, C69_vector mem' hn' hg' hf'] at h
  have e := vecText_inj (Except.ok.inj h)
  have l := congrArg List.length e
  simp only [List.length_map, List.length_range] at l
  refine ⟨l, fun i hi => ?_⟩
  rw [hg i hi, hg' i (l ▸ hi)]
  have := congrArg (fun t => t[i]?) e
  simp only [List.getElem?_map, List.getElem?_range hi, List.getElem?_range (l ▸ hi), Option.map_some, Option.some.injEq] at this
  rw [this]

/-- vectors, and slices of them, in memory -/
theorem C69_plain {b : Nat} (mem : Nat → Nat) {H : Heap} {o : Obj} (h : Plain H o)
    (hf : ∀ i, i < o.get_n → cell H (o.at' i) < 2 ^ b) :
    Dump.vector b mem H o = .ok (vecText b ((List.range o.get_n).map (fun i => cell H (o.at' i)))) :=
  C69_vector mem h.get_n (fun i hi => (C43_get h i).1 hi) hf

/-- zero-extended vectors show their zeros -/
theorem C69_zero_extended {b : Nat} (mem : Nat → Nat) {H : Heap} {o : Obj} (h : Plain H o) (n : Nat)
    (hf : ∀ i, i < o.get_n → cell H (o.at' i) < 2 ^ b) :
    Dump.vector b mem H (Obj.mkZeroExt o n)
      = .ok (vecText b ((List.range n).map (fun i => if i < o.get_n then cell H (o.at' i) else 0))) := by
  refine C69_vector (o := Obj.mkZeroExt o n) mem rfl (fun i hi => ?_) (fun i hi => ?_)
  · have hi' : i < n := hi
    simp only [Obj.mkZeroExt, Obj.get, cassert, decide_eq_true hi', if_true, ok_bind]
    by_cases c : i < o.get_n
    · rw [if_pos c, if_pos c]; exact (C43_get h i).1 c
    · rw [if_neg c, if_neg c]
  · by_cases c : i < o.get_n
    · rw [if_pos c]; exact hf i c
    · rw [if_neg c]; exact Nat.two_pow_pos b

/-- views show the elements they map to -/
theorem C69_view {b : Nat} (mem : Nat → Nat) {H : Heap} {o v : Obj} (h : Plain H o) {n offset step : Nat}
    (hv : Obj.mkView o n offset step = .ok v) (hf : ∀ i, i < o.get_n → cell H (o.at' i) < 2 ^ b) :
    Dump.vector b mem H v
      = .ok (vecText b ((List.range n).map (fun i => cell H (o.at' ((offset + step * i) % o.get_n))))) := by
  unfold Obj.mkView cassert at hv
  by_cases c : n ≤ o.get_n
  · rw [decide_eq_true c, if_pos rfl, ok_bind] at hv
    cases hv
    refine C69_vector (o := Obj.view _ _ _ _ _) mem rfl (fun i hi => ?_) (fun i hi => ?_)
    · have hi' : i < n := hi
      simp only [Obj.get, cassert, decide_eq_true hi', if_true, ok_bind]
      rw [if_neg (by omega)]
      exact (C43_get h _).1 (Nat.mod_lt _ (by omega))
    · have hi' : i < n := hi
      exact hf _ (Nat.mod_lt _ (by omega))
  · rw [decide_eq_false c] at hv
    cases hv

example : Dump.vector 8 (fun _ => 7) #[#[104, 105]] (Obj.wrapMem 2 ⟨0, 0⟩ 2) = .ok (chars "( h i )\n") := by decide +kernel
example : Dump.vector 32 (fun _ => 7) #[#[104, 0, 5]] (Obj.mkZeroExt (Obj.wrapMem 3 ⟨0, 0⟩ 3) 4) = .ok (chars "( 104 0 5 0 )\n") := by
  decide +kernel
example : Plain #[#[104, 0, 5]] (Obj.wrapMem 3 ⟨0, 0⟩ 3) := (C43_wrap (fun _ => 0) (by decide) (by decide) (by decide)).1

/-- C69: `dump` of a polynomial shows its coefficients up to its degree with their exponents -/
theorem C69_poly {b : Nat} (mem : Nat → Nat) {P : Poly} (h0 : -1 ≤ P.degree) (h1 : P.degree < P.buf.size)
    (hf : ∀ i, i < P.buf.size → gt P.buf i < 2 ^ b) :
    Dump.poly b mem P = .ok (polyText b ((List.range (P.degree + 1).toNat).map (gt P.buf))) := by
  unfold Dump.poly
  rw [forN_append (fun j => (if j = 0 then [] else chars " + ") ++ (elemText b (gt P.buf j) ++ (chars " x^" ++ decimal j)))
    (fun i s hi => by
      have hi' : i < P.buf.size := by omega
      simp only
      rw [rd_gt hi', ok_bind, put_ok mem (hf i hi'), ok_bind, num_eq]
      by_cases c : i = 0
      · rw [if_neg (by simpa using c), if_pos c]; rfl
      · rw [if_pos c, if_neg c, List.append_assoc]; rfl), ok_bind]
  unfold polyText
  rw [List.range_eq_range', terms_eq]
  rfl

/-- C69: the dump of a polynomial determines its degree and its coefficients up to there -/
theorem C69_poly_injective {b : Nat} (mem mem' : Nat → Nat) {P Q : Poly} (h0 : -1 ≤ P.degree) (h1 : P.degree < P.buf.size)
    (hf : ∀ i, i < P.buf.size → gt P.buf i < 2 ^ b) (g0 : -1 ≤ Q.degree) (g1 : Q.degree < Q.buf.size)
    (gf : ∀ i, i < Q.buf.size → gt Q.buf i < 2 ^ b) (h : Dump.poly b mem P = Dump.poly b mem' Q) :
    P.degree = Q.degree ∧ ∀ i : Nat, (i : Int) ≤ P.degree → gt P.buf i = gt Q.buf i := by
  rw [C69_poly mem h0 h1 hf, C69_poly mem' g0 g1 gf] at h
  have e := polyText_inj (Except.ok.inj h)
  have l := congrArg List.length e
  simp only [List.length_map, List.length_range] at l
  refine ⟨by omega, fun i hi => ?_⟩
  have := congrArg (fun t => t[i]?) e
  simpa only [List.getElem?_map, List.getElem?_range (show i < (P.degree + 1).toNat by omega),
    List.getElem?_range (show i < (Q.degree + 1).toNat by omega), Option.map_some, Option.some.injEq] using this

example : Dump.poly 32 (fun _ => 7) ⟨#[7, 0, 5, 9], 2⟩ = .ok (chars "7 x^0 + 0 x^1 + 5 x^2\n") := by decide +kernel
example : Dump.poly 128 (fun _ => 7) ⟨#[2 ^ 100], 0⟩ = .ok (chars "1267650600228229401496703205376 x^0\n") := by decide +kernel

private theorem rowBody_ok {b : Nat} (mem : Nat → Nat) {M : Mat} (hs : M.mem.size = M.n_rows * M.n_cols)
    (hf : ∀ i, i < M.mem.size → gt M.mem i < 2 ^ b) {row : Nat} (hr : row < M.n_rows) (s : List Nat) :
    rowBody b mem M row s = .ok (s ++ rowText b ((List.range M.n_cols).map (fun j => gt M.mem (row * M.n_cols + j)))) := by
  unfold rowBody
  rw [forN_append (fun j => chars " " ++ elemText b (gt M.mem (row * M.n_cols + j)))
    (fun j s hj => by
      have hi : row * M.n_cols + j < M.mem.size := by
        rw [hs]
        calc row * M.n_cols + j < row * M.n_cols + M.n_cols := by omega
          _ = (row + 1) * M.n_cols := by rw [Nat.succ_mul]
          _ ≤ _ := Nat.mul_le_mul_right _ hr
      unfold Mat.get cassert
      rw [decide_eq_true hr, decide_eq_true hj, if_pos rfl, ok_bind, ok_bind, rd_gt hi, ok_bind, put_ok mem (hf _ hi), ok_bind]
      rfl), ok_bind]
  unfold rowText
  rw [List.map_map, ← List.flatMap_def, List.append_assoc]
  rfl

/-- C69: `dump` of a matrix shows its rows, one per line -/
theorem C69_matrix {b : Nat} (mem : Nat → Nat) {M : Mat} (hs : M.mem.size = M.n_rows * M.n_cols)
    (hf : ∀ i, i < M.mem.size → gt M.mem i < 2 ^ b) :
    Dump.matrix b mem M = .ok (matText b ((List.range M.n_rows).map (fun i =>
      (List.range M.n_cols).map (fun j => gt M.mem (i * M.n_cols + j))))) := by
  unfold Dump.matrix
  rw [forN_append _ (fun i s hi => rowBody_ok mem hs hf hi s)]
  unfold matText
  rw [List.map_map, ← List.flatMap_def]
  rfl

/-- C69: a single row -/
theorem C69_matrix_row {b : Nat} (mem : Nat → Nat) {M : Mat} (hs : M.mem.size = M.n_rows * M.n_cols)
    (hf : ∀ i, i < M.mem.size → gt M.mem i < 2 ^ b) (row : Nat) :
    dump_row b mem M row = if row < M.n_rows
      then .ok (rowText b ((List.range M.n_cols).map (fun j => gt M.mem (row * M.n_cols + j)))) else .error .assertFail := by
  unfold dump_row cassert
  by_cases c : row < M.n_rows
  · rw [decide_eq_true c, if_pos rfl, ok_bind, if_pos c]
    exact rowBody_ok mem hs hf c []
  · rw [decide_eq_false c, if_neg c]; rfl

/-- C69: the dump of a matrix determines the number of rows and the rows -/
theorem C69_matrix_injective {b : Nat} (mem mem' : Nat → Nat) {M N : Mat} (hs : M.mem.size = M.n_rows * M.n_cols)
    (hf : ∀ i, i < M.mem.size → gt M.mem i < 2 ^ b) (gs : N.mem.size = N.n_rows * N.n_cols)
    (gf : ∀ i, i < N.mem.size → gt N.mem i < 2 ^ b) (h : Dump.matrix b mem M = Dump.matrix b mem' N) :
    M.n_rows = N.n_rows ∧ (0 < M.n_rows → M.n_cols = N.n_cols) ∧ ∀ i j, i < M.n_rows → j < M.n_cols → M.get i j = N.get i j := by
  rw [C69_matrix mem hs hf, C69_matrix mem' gs gf] at h
  have e := matText_inj (Except.ok.inj h)
  have l := congrArg List.length e
  simp only [List.length_map, List.length_range] at l
  have row : ∀ i, i < M.n_rows → (List.range M.n_cols).map (fun j => gt M.mem (i * M.n_cols + j))
      = (List.range N.n_cols).map (fun j => gt N.mem (i * N.n_cols + j)) := by
    intro i hi
    have := congrArg (fun t => t[i]?) e
    simpa only [List.getElem?_map, List.getElem?_range hi, List.getElem?_range (l ▸ hi), Option.map_some,
      Option.some.injEq] using this
  have cols : ∀ i, i < M.n_rows → M.n_cols = N.n_cols := by
    intro i hi
    simpa using congrArg List.length (row i hi)
  refine ⟨l, fun hp => cols 0 hp, fun i j hi hj => ?_⟩
  have c := cols i hi
  have := congrArg (fun t => t[j]?) (row i hi)
  simp only [List.getElem?_map, List.getElem?_range hj, List.getElem?_range (c ▸ hj), Option.map_some,
    Option.some.injEq] at this
  have b1 : i * M.n_cols + j < M.mem.size := by
    rw [hs]
    calc i * M.n_cols + j < i * M.n_cols + M.n_cols := by omega
      _ = (i + 1) * M.n_cols := by rw [Nat.succ_mul]
      _ ≤ _ := Nat.mul_le_mul_right _ hi
  have b2 : i * N.n_cols + j < N.mem.size := by
    rw [gs, ← l, ← c, ← hs]; exact b1
  unfold Mat.get cassert
  rw [decide_eq_true hi, decide_eq_true hj, decide_eq_true (l ▸ hi : i < N.n_rows), decide_eq_true (c ▸ hj : j < N.n_cols),
    if_pos rfl, ok_bind, ok_bind, ok_bind, ok_bind, rd_gt b1, rd_gt b2, this]

example : Dump.matrix 16 (fun _ => 7) ⟨2, 2, #[1, 20, 3, 4]⟩ = .ok (chars "--\n 1 20\n 3 4\n") := by decide +kernel

/-- C69: `dump` of a set of buffers shows them one per line with their numbers.
Missing: buffers of no elements, see `C69_buffers_empty_undefined`. -/
theorem C69_buffers_partial {b : Nat} (mem : Nat → Nat) {H : Heap} {B : Bufs} (hm : B.n ≤ B.mem.size) (h0 : 0 < B.size)
    (h64 : B.size < 2 ^ 64) (hp : ∀ i, i < B.n → gt B.mem i < H.size)
    (hz : ∀ i, i < B.n → B.size ≤ (gt H (gt B.mem i)).size)
    (hf : ∀ i j, i < B.n → j < B.size → gt (gt H (gt B.mem i)) j < 2 ^ b) :
    Dump.buffers b mem H B = .ok (bufsText b ((List.range B.n).map (fun i =>
      (List.range B.size).map (fun j => gt (gt H (gt B.mem i)) j)))) := by
  have get : ∀ i, i < B.n → B.get i = .ok (gt B.mem i) := by
    intro i hi
    unfold Bufs.get cassert
    rw [decide_eq_true hi, if_pos rfl, ok_bind, rd_gt (by omega)]
  have el : ∀ i j, i < B.n → j < B.size → Heap.rdEl H (gt B.mem i) j = .ok (gt (gt H (gt B.mem i)) j) := by
    intro i j hi hj
    unfold Heap.rdEl
    rw [rd_gt (hp i hi), ok_bind, rd_gt (lt_of_lt_of_le hj (hz i hi))]
  have cnt : (B.size + (2 ^ 64 - 1)) % 2 ^ 64 = B.size - 1 := by omega
  unfold Dump.buffers
  rw [forN_append (fun i => chars "\n\t" ++ (decimal i ++ (chars ": " ++
      joinText b ((List.range B.size).map (fun j => gt (gt H (gt B.mem i)) j)))))
    (fun i s hi => by
      simp only
      rw [cnt, forN_append (fun j => elemText b (gt (gt H (gt B.mem i)) j) ++ chars "-")
        (fun j s hj => by
          rw [get i hi, ok_bind, el i j hi (by omega), ok_bind, put_ok mem (hf i j hi (by omega)), ok_bind]; rfl), ok_bind,
        if_pos h0, get i hi, ok_bind, el i _ hi (by omega), ok_bind, put_ok mem (hf i _ hi (by omega)), ok_bind, num_eq]
      obtain ⟨m, hm⟩ : ∃ m, B.size = m + 1 := ⟨B.size - 1, by omega⟩
      rw [hm, List.range_eq_range' (n := m + 1), join_eq, Nat.add_sub_cancel, ← List.range_eq_range']
      simp only [List.append_assoc, Nat.zero_add]
      rfl), ok_bind]
  unfold bufsText
  rw [List.range_eq_range' (n := B.n), bufs_eq]
  rfl

/-- C69: the dump of buffers of at least one element determines their number, their length and their contents -/
theorem C69_buffers_injective {b : Nat} (mem mem' : Nat → Nat) {H H' : Heap} {B C : Bufs} (hm : B.n ≤ B.mem.size)
    (h0 : 0 < B.size) (h64 : B.size < 2 ^ 64) (hp : ∀ i, i < B.n → gt B.mem i < H.size)
    (hz : ∀ i, i < B.n → B.size ≤ (gt H (gt B.mem i)).size)
    (hf : ∀ i j, i < B.n → j < B.size → gt (gt H (gt B.mem i)) j < 2 ^ b) (gm : C.n ≤ C.mem.size)
    (g0 : 0 < C.size) (g64 : C.size < 2 ^ 64) (gp : ∀ i, i < C.n → gt C.mem i < H'.size)
    (gz : ∀ i, i < C.n → C.size ≤ (gt H' (gt C.mem i)).size)
    (gf : ∀ i j, i < C.n → j < C.size → gt (gt H' (gt C.mem i)) j < 2 ^ b)
    (h : Dump.buffers b mem H B = Dump.buffers b mem' H' C) :
    B.n = C.n ∧ (0 < B.n → B.size = C.size) ∧
      ∀ i j, i < B.n → j < B.size → gt (gt H (gt B.mem i)) j = gt (gt H' (gt C.mem i)) j := by
  rw [C69_buffers_partial mem hm h0 h64 hp hz hf, C69_buffers_partial mem' gm g0 g64 gp gz gf] at h
  have ne : ∀ (n : Nat) (f : Nat → Nat → Nat) (k : Nat), 0 < n →
      ∀ r ∈ (List.range k).map (fun i => (List.range n).map (f i)), r ≠ [] := by
    intro n f k hn r hr e
    obtain ⟨i, -, rfl⟩ := List.mem_map.1 hr
    have := congrArg List.length e
    simp at this
    omega
  have e := bufsFrom_inj (ne _ (fun i j => gt (gt H (gt B.mem i)) j) _ h0) (ne _ (fun i j => gt (gt H' (gt C.mem i)) j) _ g0)
    (Except.ok.inj h)
  have l := congrArg List.length e
  simp only [List.length_map, List.length_range] at l
  have row : ∀ i, i < B.n → (List.range B.size).map (fun j => gt (gt H (gt B.mem i)) j)
      = (List.range C.size).map (fun j => gt (gt H' (gt C.mem i)) j) := by
    intro i hi
    have := congrArg (fun t => t[i]?) e
    simpa only [List.getElem?_map, List.getElem?_range hi, List.getElem?_range (l ▸ hi), Option.map_some,
      Option.some.injEq] using this
  have cols : ∀ i, i < B.n → B.size = C.size := by
    intro i hi
    simpa using congrArg List.length (row i hi)
  refine ⟨l, fun hp => cols 0 hp, fun i j hi hj => ?_⟩
  have c := cols i hi
  have := congrArg (fun t => t[j]?) (row i hi)
  simpa only [List.getElem?_map, List.getElem?_range hj, List.getElem?_range (c ▸ hj), Option.map_some,
    Option.some.injEq] using this

/-- C69 fails for buffers of no elements, as a packet of size zero makes them: the bound `size - 1` of the loop wraps around,
and the first element read is not there -/
theorem C69_buffers_empty_undefined (b : Nat) (mem : Nat → Nat) (junk : Nat → Nat → Nat) (H : Heap) {n : Nat} (hn : 0 < n) :
    Dump.buffers b mem (Bufs.full junk H n 0).1 (Bufs.full junk H n 0).2 = ub := by
  unfold Dump.buffers
  rw [forN_first_error (e := .ub) (by exact hn)]
  · rfl
  · have get : (Bufs.full junk H n 0).2.get 0 = .ok H.size := by
      unfold Bufs.get cassert
      show (if decide (0 < n) = true then _ else _) >>= _ = _
      rw [decide_eq_true hn, if_pos rfl, ok_bind]
      simp [Bufs.full, rd, hn]
    have el : Heap.rdEl (Bufs.full junk H n 0).1 H.size 0 = ub := by
      unfold Heap.rdEl
      have : rd (Bufs.full junk H n 0).1 H.size = .ok (fresh (junk H.size) 0) := by
        simp [Bufs.full, rd, hn, Array.getElem?_append]
      rw [this, ok_bind]
      simp [fresh, rd]
    simp only
    rw [forN_first_error (e := .ub) (n := ((Bufs.full junk H n 0).2.size + (2 ^ 64 - 1)) % 2 ^ 64)]
    · rfl
    · show 0 < (0 + (2 ^ 64 - 1)) % 2 ^ 64
      omega
    · rw [get, ok_bind, el]; rfl

example : Dump.buffers 16 (fun _ => 7) #[#[1, 2], #[30, 4]] ⟨#[1, 0], 2, 2⟩ = .ok (chars "\n\t0: 30-4\n\t1: 1-2\n)\n") := by
  decide +kernel

/-- C69: a context shows its polynomial and its vector; under both headings the vector is the present one -/
theorem C69_context {b : Nat} (mem : Nat → Nat) {H : Heap} {A : Poly} {o : Obj} (h0 : -1 ≤ A.degree)
    (h1 : A.degree < A.buf.size) (hA : ∀ i, i < A.buf.size → gt A.buf i < 2 ^ b) (h : Plain H o)
    (hf : ∀ i, i < o.get_n → cell H (o.at' i) < 2 ^ b) :
    Dump.context b mem H A o = .ok (chars "Dump context:\n" ++ chars "A:"
      ++ polyText b ((List.range (A.degree + 1).toNat).map (gt A.buf))
      ++ chars "inv_A_i init:" ++ vecText b ((List.range o.get_n).map (fun i => cell H (o.at' i)))
      ++ chars "inv_A_i:" ++ vecText b ((List.range o.get_n).map (fun i => cell H (o.at' i)))) := by
  unfold Dump.context
  rw [C69_poly mem h0 h1 hA, ok_bind, C69_plain mem h hf, ok_bind, ok_bind]
  simp only [List.append_assoc]
  rfl

end Quad.Props
