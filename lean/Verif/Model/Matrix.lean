import Verif.Model.Field

/-!
# Model of src/vec_matrix.h

Indices and dimensions are natural numbers: products `n_rows * n_cols` that do not fit
an `int` are not modelled.  The integers `i`, `j` turned into field elements are used as they
are: the theorems keep them below the number of elements, so that no truncation to `T` occurs.
-/

namespace Quad

/-- `Matrix<T>` (vec_matrix.h:52-87): the entries, row by row -/
structure Mat where
  n_rows : Nat
  n_cols : Nat
  mem : Array Nat
  deriving DecidableEq, Repr

namespace Mat

/-- the constructor (vec_matrix.h:89-96): memory not initialised -/
def mk' (n_rows n_cols : Nat) (mem : Nat → Nat) : Mat :=
  { n_rows := n_rows, n_cols := n_cols, mem := Array.ofFn (fun i : Fin (n_rows * n_cols) => mem i.1) }

/-- `set` (vec_matrix.h:128-135) -/
def set (M : Mat) (i j val : Nat) : Res Mat := do
  cassert (decide (i < M.n_rows))
  cassert (decide (j < M.n_cols))
  let mem ← wr M.mem (i * M.n_cols + j) val
  pure { M with mem := mem }

/-- `get` (vec_matrix.h:137-144) -/
def get (M : Mat) (i j : Nat) : Res Nat := do
  cassert (decide (i < M.n_rows))
  cassert (decide (j < M.n_cols))
  rd M.mem (i * M.n_cols + j)

/-- `zero_fill` (vec_matrix.h:116-126) -/
def zero_fill (M : Mat) : Res Mat :=
  forN M.n_rows M (fun i M => forN M.n_cols M (fun j M => M.set i j 0))

/-- `swap_rows` (vec_matrix.h:146-160) -/
def swap_rows (M : Mat) (row0 row1 : Nat) : Res Mat := do
  cassert (decide (row0 < M.n_rows))
  cassert (decide (row1 < M.n_rows))
  forN M.n_cols M (fun j M => do
    let tmp ← M.get row0 j
    let x ← M.get row1 j
    let M ← M.set row0 j x
    M.set row1 j tmp)

/-- `mul_row` (vec_matrix.h:162-172) -/
def mul_row (F : GF) (M : Mat) (row factor : Nat) : Res Mat := do
  cassert (decide (row < M.n_rows))
  forN M.n_cols M (fun j M => do
    let x ← M.get row j
    M.set row j (F.mul x factor))

/-- `add_rows` (vec_matrix.h:174-187) -/
def add_rows (F : GF) (M : Mat) (src_row dst_row factor : Nat) : Res Mat := do
  cassert (decide (src_row < M.n_rows))
  cassert (decide (dst_row < M.n_rows))
  forN M.n_cols M (fun j M => do
    let x ← M.get dst_row j
    let y ← M.get src_row j
    M.set dst_row j (F.add x (F.mul y factor)))

/-- the search of a pivot row (vec_matrix.h:198-200): the first row from `n_rows - left` on
with a nonzero entry in column `j`, or `n_rows` -/
def findRow (M : Mat) (j : Nat) : Nat → Res Nat
  | 0 => .ok M.n_rows
  | left + 1 => do
    let x ← M.get (M.n_rows - (left + 1)) j
    if x = 0 then findRow M j left else pure (M.n_rows - (left + 1))

/-- the search of a pivot column (vec_matrix.h:218-220): the first column from
`n_cols - left` on with a nonzero entry in row `i`, or `n_cols` -/
def findCol (M : Mat) (i : Nat) : Nat → Res Nat
  | 0 => .ok M.n_cols
  | left + 1 => do
    let x ← M.get i (M.n_cols - (left + 1))
    if x = 0 then findCol M i left else pure (M.n_cols - (left + 1))

/-- one column of the first phase of `reduced_row_echelon_form` (vec_matrix.h:196-212): the
matrix and `num_pivots` -/
def refStep (F : GF) (j : Nat) (s : Mat × Nat) : Res (Mat × Nat) :=
  if s.2 < s.1.n_rows then do
    let pivot_row ← s.1.findRow j (s.1.n_rows - s.2)
    if pivot_row = s.1.n_rows then pure s
    else do
      let M ← s.1.swap_rows s.2 pivot_row
      let x ← M.get s.2 j
      let y ← F.div 1 x
      let M ← M.mul_row F s.2 y
      let M ← forStep (s.2 + 1) M.n_rows 1 M (fun i M => do
        let x ← M.get i j
        M.add_rows F s.2 i (F.neg x))
      pure (M, s.2 + 1)
  else pure s

/-- one row of the second phase (vec_matrix.h:216-226) -/
def rrefStep (F : GF) (i : Nat) (M : Mat) : Res Mat := do
  let pivot_col ← M.findCol i M.n_cols
  if pivot_col = M.n_cols then pure M
  else forN i M (fun t M => do
    let x ← M.get (i - 1 - t) pivot_col
    M.add_rows F i (i - 1 - t) (F.neg x))

/-- `reduced_row_echelon_form` (vec_matrix.h:189-227) -/
def reduced_row_echelon_form (F : GF) (M : Mat) : Res Mat := do
  let (M, num_pivots) ← forN M.n_cols (M, 0) (fun j s => refStep F j s)
  forN num_pivots M (fun t M => rrefStep F (num_pivots - 1 - t) M)

/-- `inv` (vec_matrix.h:233-265); `mem` is the memory of the augmented matrix before it is filled -/
def inv (F : GF) (M : Mat) (mem : Nat → Nat) : Res Mat := do
  cassert (decide (M.n_rows = M.n_cols))
  let tmp ← forN M.n_rows (mk' M.n_rows (M.n_cols * 2) mem) (fun i tmp =>
    forN M.n_cols tmp (fun j tmp => do
      let x ← M.get i j
      let tmp ← tmp.set i j x
      tmp.set i (j + M.n_cols) (if i = j then 1 else 0)))
  let tmp ← tmp.reduced_row_echelon_form F
  forN M.n_rows () (fun i _ => forN M.n_cols () (fun j _ => do
    let x ← tmp.get i j
    if x ≠ (if i = j then 1 else 0) then .error (.throws .domainError) else pure ()))
  forN M.n_rows M (fun i M => forN M.n_cols M (fun j M => do
    let x ← tmp.get i (j + M.n_cols)
    M.set i j x))

/-- `row_is_identity` (vec_matrix.h:267-280) -/
def row_is_identity (M : Mat) (row : Nat) : Res Bool := do
  cassert (decide (row < M.n_rows))
  forN M.n_cols true (fun j r =>
    if r = false then .ok false else do
      let x ← M.get row j
      pure (decide (x = if j = row then 1 else 0)))

/-- `vandermonde` (vec_matrix.h:282-292).  The conversion of `i` to `T` in the call of `exp` is not modelled: it only matters for words `i` that
are no elements. -/
def vandermonde (F : GF) (M : Mat) : Res Mat :=
  forN M.n_rows M (fun i M => forN M.n_cols M (fun j M => do
    let x ← F.expC i j
    M.set i j x))

/-- `ec_transform1` (vec_matrix.h:297-310) -/
def ec_transform1 (F : GF) (M : Mat) (i : Nat) : Res Mat := do
  cassert (decide (i < M.n_rows))
  cassert (decide (i < M.n_cols))
  let x ← M.get i i
  let f_minus_1 ← F.inv x
  forN M.n_rows M (fun k M => do
    let y ← M.get k i
    let z ← F.mulC f_minus_1 y
    M.set k i z)

/-- `ec_transform2` (vec_matrix.h:315-328) -/
def ec_transform2 (F : GF) (M : Mat) (i j : Nat) : Res Mat := do
  cassert (decide (i < M.n_rows))
  cassert (decide (i < M.n_cols))
  let f_i_j ← M.get i j
  forN M.n_rows M (fun k M => do
    let x ← M.get k j
    let y ← M.get k i
    let z ← F.mulC f_i_j y
    M.set k j (F.sub x z))

/-- one turn of the loop of `vandermonde_suitable_for_ec` (vec_matrix.h:346-376) -/
def ecStep (F : GF) (i : Nat) (tmp : Mat) : Res Mat := do
  let id ← tmp.row_is_identity i
  if id then pure tmp
  else do
    let x ← tmp.get i i
    let tmp ← (if 1 ≠ x then tmp.ec_transform1 F i else pure tmp)
    forN tmp.n_cols tmp (fun j tmp =>
      if i ≠ j then do
        let y ← tmp.get i j
        if 0 ≠ y then tmp.ec_transform2 F i j else pure tmp
      else pure tmp)

/-- `vandermonde_suitable_for_ec` (vec_matrix.h:333-385) -/
def vandermonde_suitable_for_ec (F : GF) (M : Mat) (mem : Nat → Nat) : Res Mat := do
  let tmp ← (mk' (M.n_rows + M.n_cols) M.n_cols mem).vandermonde F
  let tmp ← forN M.n_cols tmp (fun i tmp => ecStep F i tmp)
  forN M.n_rows M (fun i M => forN M.n_cols M (fun j M => do
    let x ← tmp.get (M.n_cols + i) j
    M.set i j x))

/-- `mul` (vec_matrix.h:387-404): the new contents of `output` -/
def mul (F : GF) (M : Mat) (output v : Array Nat) : Res (Array Nat) := do
  cassert (decide (M.n_cols = v.size))
  cassert (decide (M.n_rows = output.size))
  forN M.n_rows output (fun i output => forN M.n_cols output (fun j output => do
    let a ← M.get i j
    let b ← rd v j
    let x := F.mul a b
    if 0 = j then wr output i x
    else do
      let y ← rd output i
      wr output i (F.add y x)))

/-- `cauchy` (vec_matrix.h:406-430) -/
def cauchy (F : GF) (M : Mat) : Res Mat := do
  let M ← forN M.n_rows M (fun i M => forN M.n_cols M (fun j M => do
    let x ← F.inv (F.add i (j + M.n_rows))
    M.set i j x))
  let M ← forN M.n_cols M (fun j M => forN M.n_rows M (fun i M => do
    let x ← M.get i j
    let y ← M.get 0 j
    let z ← F.div x y
    M.set i j z))
  forStep 1 M.n_rows 1 M (fun i M => forN M.n_cols M (fun j M => do
    let x ← M.get i j
    let y ← M.get i 0
    let z ← F.div x y
    M.set i j z))

end Mat
end Quad
