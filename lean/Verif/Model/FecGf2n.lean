import Verif.Model.Fec
import Verif.Model.Matrix
import Verif.Model.BinExt

/-!
# Model of src/fec_rs_gf2n.h

Only the functions on words exist in the code: `encode` and `decode` on buffers are those of the
base class, which this code does not support.  `init_context_dec` returns a null pointer that
`decode_streams_horizontal` dereferences to pass a reference nobody uses; the reference is not modelled.
-/

namespace Quad

/-- a `FourierTransform<T>` pointer that is null: every use is undefined -/
def FT.null : FT :=
  ⟨0, fun _ _ => ub, fun _ _ => ub, fun _ _ => ub, fun _ _ => ub, fun _ _ => ub, fun _ _ => ub⟩

namespace RsGf2n

/-- `RsMatrixType` (fec_rs_gf2n.h:42) -/
inductive MatType where
  | vandermonde
  | cauchy
  deriving DecidableEq, Repr

/-- `decode_add_data` (fec_rs_gf2n.h:113-122) -/
def decode_add_data (D : Mat) (n_cols fragment_index row : Nat) : Res Mat :=
  forN n_cols D (fun j D => if row = j then D.set fragment_index j 1 else D.set fragment_index j 0)

/-- `decode_add_parities` (fec_rs_gf2n.h:124-130) -/
def decode_add_parities (D mat : Mat) (fragment_index row : Nat) : Res Mat :=
  forN mat.n_cols D (fun j D => do
    let x ← mat.get row j
    D.set fragment_index j x)

/-- the calls of `decode_add_data`, `decode_add_parities` (fec_base.h:585-617) for the fragments `ids` -/
def decode_rows (D mat : Mat) (k : Nat) (ids : Array Nat) : Res Mat :=
  forN k D (fun fi D => do
    let id ← rd ids fi
    if id < k then decode_add_data D mat.n_cols fi id else decode_add_parities D mat fi (id - k))

/-- these calls, that of `decode_build` (fec_base.h:620, fec_rs_gf2n.h:132-135) and of `init_context_dec`
(fec_rs_gf2n.h:147-156).  All entries of `decode_mat` are written: its former contents are `mem`. -/
def init_dec (F : GF) (mat : Mat) (k : Nat) (ids : Array Nat) (props : Array Properties) (mem : Nat → Nat) :
    Res (Mat × Array Properties) := do
  let D ← decode_rows (Mat.mk' k k mem) mat k ids
  let D ← D.inv F mem
  pure (D, props)

/-- the members of the base class (fec_base.h:297-316) for a systematic code without transforms -/
def mkBase (F : GF) (word_size n_data n_parities : Nat) : FecBase :=
  { sys := true, word_size := word_size, n_data := n_data, n_parities := n_parities, code_len := n_data + n_parities,
    n_outputs := n_parities, pkt_size := 8, n := 0, r := 0, F := F, fft := .null, fft_2k := .null,
    inv_r_powers := #[], r_powers := #[] }

/-- the virtual functions (fec_rs_gf2n.h:98-156) over the field `F` with the matrix `mat` -/
def fec (F : GF) (word_size n_data n_parities : Nat) (mat : Mat) : Fec Mat where
  base := mkBase F word_size n_data n_parities
  get_n_outputs := n_parities
  encode output props _ words := do
    let output ← mat.mul F output words
    pure (output, props)
  init_context_dec ids props mem := init_dec F mat n_data ids props mem
  decode D output _ _ words := do
    let output ← D.mul F output words
    pure (D, output)

/-- The members of an object (fec_rs_gf2n.h:50-51, 158-160): the matrix for decoding belongs to the object, not to a context. -/
structure Obj where
  F : GF
  k : Nat
  mat : Mat
  decode_mat : Mat

/-- the constructor, `check_params`, `init_gf` and `init_others` (fec_rs_gf2n.h:55-97) with words of `b`
bits; `mem`, `junk` and `junk3` are the contents of uninitialised memory -/
def mkObj (b word_size n_data n_parities : Nat) (type : MatType) (mem : Nat → Nat) (junk : Nat → Nat → Nat)
    (junk3 : Nat → Nat → Nat → Nat) : Res Obj := do
  cassert (decide (word_size ≤ 16))
  let F ← BinExt.mk' b (8 * word_size) junk junk3
  let O ← F.init
  let mat := Mat.mk' n_parities n_data mem
  let mat ← match type with
    | .cauchy => mat.cauchy O.gf
    | .vandermonde => mat.vandermonde_suitable_for_ec O.gf mem
  pure ⟨O.gf, n_data, mat, Mat.mk' n_data n_data mem⟩

/-- The object for the functions on streams.  They fill `decode_mat` and read it in one call (fec_base.h:585-660), so that their model
keeps it as the context of the call. -/
def mk' (b word_size n_data n_parities : Nat) (type : MatType) (mem : Nat → Nat) (junk : Nat → Nat → Nat)
    (junk3 : Nat → Nat → Nat → Nat) : Res (Fec Mat) := do
  let O ← mkObj b word_size n_data n_parities type mem junk junk3
  pure (fec O.F word_size n_data n_parities O.mat)

/-- what a program calls before it decodes words from the fragments `ids`: `decode_add_data` or `decode_add_parities` for each of them and
`decode_build` (fec_rs_gf2n.h:113-135) -/
def Obj.prepare (O : Obj) (ids : Array Nat) (mem : Nat → Nat) : Res Obj := do
  let D ← decode_rows O.decode_mat O.mat O.k ids
  let D ← D.inv O.F mem
  pure { O with decode_mat := D }

/-- `decode` (fec_rs_gf2n.h:137-145): the context is not used -/
def Obj.decode (O : Obj) (output words : Array Nat) : Res (Array Nat) := O.decode_mat.mul O.F output words

end RsGf2n
end Quad
