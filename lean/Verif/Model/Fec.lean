import Verif.Model.Fft2n
import Verif.Model.Poly
import Verif.Model.Property

/-!
# Model of src/fec_context.h and of the word-level part of src/fec_base.h

`vec::Vector<T>` is an array of words.  `fresh mem n` is a vector of `n` words
of newly allocated memory: its contents `mem` are arbitrary.
Statistics (timers, cycle counters) are not modelled.
-/

namespace Quad

/-- The virtual functions of `fft::FourierTransform<T>` (fft_base.h:57-90); the
first argument is the output, whose contents are overwritten. -/
structure FT where
  n : Nat
  fft : Array Nat → Array Nat → Res (Array Nat)
  fft_inv : Array Nat → Array Nat → Res (Array Nat)
  ifft : Array Nat → Array Nat → Res (Array Nat)
  fftB : Array (Array Nat) → Array (Array Nat) → Res (Array (Array Nat))
  fft_invB : Array (Array Nat) → Array (Array Nat) → Res (Array (Array Nat))
  ifftB : Array (Array Nat) → Array (Array Nat) → Res (Array (Array Nat))

/-- a `Radix2<T>` object with packets of `pkt` words, seen as a `FourierTransform<T>` -/
def Radix2.ft (R : Radix2) (pkt : Nat) : FT where
  n := R.n
  fft := R.fft
  fft_inv := R.fft_inv
  ifft := R.ifft
  fftB := R.fftBufG (pktCell R.F pkt)
  fft_invB := R.fftInvBufG (pktCell R.F pkt)
  ifftB := R.ifftBufG (pktCell R.F pkt)

/-- `vec::Vector<T>(gf, n)` (vec_vector.h:139-151): memory not initialised -/
def fresh (mem : Nat → Nat) (n : Nat) : Array Nat := Array.ofFn (fun i : Fin n => mem i)

/-- the elements of `vec::ZeroExtended<T>(vec, n)` (vec_zero_ext.h:66-86) -/
def zeroExtended (a : Array Nat) (n : Nat) : Array Nat :=
  Array.ofFn (fun i : Fin n => if i.1 < a.size then gt a i else 0)

/-- the elements of `vec::Slice<T>(vec, n)` at offset 0 (vec_slice.h:70-94):
the length is cut down to that of `vec` -/
def slice0 (a : Array Nat) (n : Nat) : Array Nat := a.extract 0 n

/-- `vec::Vector::hadamard_mul` (vec_vector.h:307-314, gf_ring.h:824-830) -/
def hadamardMul (F : GF) (a v : Array Nat) : Res (Array Nat) := do
  cassert (decide (a.size = v.size))
  forN a.size a (fun i a => do
    let x ← rd a i
    let y ← rd v i
    wr a i (F.mul x y))

/-- `vec::Vector::neg` (vec_vector.h:434-439) -/
def vecNeg (F : GF) (a : Array Nat) : Res (Array Nat) :=
  forN a.size a (fun i a => do
    let x ← rd a i
    wr a i (F.neg x))

/-- members of `FecCode<T>` (fec_base.h:92-110, 241-252).  `sys` is
`type == FecType::SYSTEMATIC`. -/
structure FecBase where
  sys : Bool
  word_size : Nat
  n_data : Nat
  n_parities : Nat
  code_len : Nat
  n_outputs : Nat
  pkt_size : Nat
  n : Nat
  r : Nat
  F : GF
  fft : FT
  fft_2k : FT
  inv_r_powers : Array Nat
  r_powers : Array Nat

/-- `DecodeContext<T>` with `size == 0`, the vector context (fec_context.h:276-302) -/
structure Ctx where
  vx_zero : Option Nat
  props_indices : Array Nat
  k : Nat
  n : Nat
  len_2k : Nat
  fragments_ids : Array Nat
  A : Poly
  A_fft_2k : Array Nat
  inv_A_i : Array Nat
  vec1_n : Array Nat
  vec2_n : Array Nat
  vec1_2k : Array Nat
  vec2_2k : Array Nat

namespace Ctx

/-- first part of `DecodeContext::init` (fec_context.h:232-251): the polynomial
`A`, and `A'` -/
def initA (F : GF) (vx : Array Nat) (k n : Nat) (mem : Nat → Nat) : Res (Poly × Poly) := do
  let A := (Poly.mk' (fresh mem n)).zero_fill
  let A ← A.set 0 (if F.isNF4 then F.replicate 1 else 1)
  let A ← forN k A (fun i A => do
    let x ← rd vx i
    A.mul_to_x_plus_coef F (F.sub 0 x))
  let dA ← if F.isNF4 then A.derivative_nf4 F else A.derivative F
  pure (A, dA)

/-- `1/(x_i * A'(x_i))` (fec_context.h:257-267) -/
def initInv (F : GF) (ids vx A_fft : Array Nat) (vx_zero : Option Nat) (k : Nat) (inv_A_i : Array Nat) :
    Res (Array Nat) :=
  forN k inv_A_i (fun i inv_A_i => do
    let j ← rd ids i
    let a ← rd A_fft j
    if some i ≠ vx_zero then do
      let x ← rd vx i
      let y ← F.inv (F.mul a x)
      wr inv_A_i i y
    else do
      let y ← F.inv a
      wr inv_A_i i y)

/-- constructor with `size == 0` (fec_context.h:66-142 and `init` 232-274); the
second component is `input_props` after the call, each sorted.  `fft_2k` is
`none` when the pointer is null. -/
def mk' (F : GF) (fft : FT) (fft_2k : Option FT) (fragments_ids : Array Nat) (input_props : Array Properties)
    (vx : Array Nat) (k n : Nat) (vx_zero : Option Nat) (mem : Nat → Nat) : Res (Ctx × Array Properties) := do
  let len_2k ← F.codeLenHC (2 * k)
  let props := input_props.map Properties.sort
  let (A, dA) ← initA F vx k n mem
  let A_fft ← fft.fft (fresh mem n) dA.buf
  let inv_A_i ← initInv F fragments_ids vx A_fft vx_zero k (fresh mem k)
  let A_fft_2k ← match fft_2k with
    | some T => T.fft (fresh mem len_2k) (zeroExtended A.buf len_2k)
    | none => .ok (fresh mem len_2k)
  pure ({ vx_zero := vx_zero, props_indices := Array.replicate input_props.size 0, k := k, n := n,
          len_2k := len_2k, fragments_ids := fragments_ids, A := A, A_fft_2k := A_fft_2k, inv_A_i := inv_A_i,
          vec1_n := Array.replicate n 0, vec2_n := Array.replicate n 0,
          vec1_2k := fresh mem len_2k, vec2_2k := fresh mem len_2k }, props)

end Ctx

/-- `FecCode::init_context_dec` (fec_base.h:757-793), vector case, for a code
whose tables are initialised -/
def FecBase.init_context_dec (B : FecBase) (fragments_ids : Array Nat) (input_props : Array Properties)
    (mem : Nat → Nat) : Res (Ctx × Array Properties) := do
  let vx ← forN B.n_data (fresh mem B.n_data) (fun i vx => do
    let j ← rd fragments_ids i
    let x ← rd B.r_powers j
    wr vx i x)
  Ctx.mk' B.F B.fft (some B.fft_2k) fragments_ids input_props vx B.n_data B.n none mem

/-- `FecCode::decode_prepare` (fec_base.h:796-820): the context and the words -/
def FecBase.decode_prepare (B : FecBase) (C : Ctx) (props : Array Properties) (offset : Nat)
    (words : Array Nat) : Res (Ctx × Array Nat) :=
  forN B.n_data (C, words) (fun i s => do
    let j ← rd s.1.fragments_ids i
    let P ← rd props j
    let idx ← rd s.1.props_indices j
    if P.is_marked idx offset then do
      let words ← if P.marker idx = OOR_MARK then wr s.2 i (B.F.card - 1) else pure s.2
      let pi ← wr s.1.props_indices j (idx + 1)
      pure ({ s.1 with props_indices := pi }, words)
    else pure s)

/-- `FecCode::decode_apply` (fec_base.h:831-878): the context (its scratch
vectors change) and the output -/
def FecBase.decode_apply (B : FecBase) (C : Ctx) (output words : Array Nat) : Res (Ctx × Array Nat) := do
  let k := B.n_data
  let vec1_n := Array.replicate C.vec1_n.size 0
  let vec1_n ← forN k vec1_n (fun i v => do
    let j ← rd C.fragments_ids i
    let x ← rd words i
    let a ← rd C.inv_A_i i
    wr v j (B.F.mul x a))
  let vec2_n ← B.fft.fft_inv C.vec2_n vec1_n
  let vec1_2k ← B.fft_2k.fft C.vec1_2k (zeroExtended (slice0 vec2_n k) C.len_2k)
  let vec1_2k ← hadamardMul B.F vec1_2k C.A_fft_2k
  let vec2_2k ← B.fft_2k.ifft C.vec2_2k vec1_2k
  let vec2_2k ← vecNeg B.F vec2_2k
  let output ← forN k output (fun i output => do
    let x ← rd vec2_2k i
    wr output i x)
  pure ({ C with vec1_n := vec1_n, vec2_n := vec2_n, vec1_2k := vec1_2k, vec2_2k := vec2_2k }, output)

/-- A `FecCode<T>` object: the members and the virtual functions the stream
functions of the base class call.  `Γ` is the state the decoding functions of the code
keep: a `DecodeContext<T>`, or the members that `decode_add_data`, `decode_add_parities`
and `decode_build` fill. -/
structure Fec (Γ : Type) where
  base : FecBase
  /-- `get_n_outputs()` -/
  get_n_outputs : Nat
  /-- `encode(output, props, offset, words)`: the new output and props -/
  encode : Array Nat → Array Properties → Nat → Array Nat → Res (Array Nat × Array Properties)
  /-- `decode_add_data` and `decode_add_parities` for each of the fragments, in order,
  `decode_build` and `init_context_dec(fragments_ids, input_props)`: the context, and the
  properties as the constructor of the context leaves them -/
  init_context_dec : Array Nat → Array Properties → (Nat → Nat) → Res (Γ × Array Properties)
  /-- `decode(context, output, props, offset, words)`: the context and the output -/
  decode : Γ → Array Nat → Array Properties → Nat → Array Nat → Res (Γ × Array Nat)

/-- `FecCode::decode` (fec_base.h:739-752) with the base class's
`decode_prepare` and `decode_apply` -/
def FecBase.decode (B : FecBase) (C : Ctx) (output : Array Nat) (props : Array Properties) (offset : Nat)
    (words : Array Nat) : Res (Ctx × Array Nat) := do
  let (C, words) ← B.decode_prepare C props offset words
  B.decode_apply C output words

/-! ### streams, word by word -/

/-- value of a little-endian byte sequence -/
def leVal : List Nat → Nat
  | [] => 0
  | b :: bs => b + 256 * leVal bs

/-- the `w` low bytes of a value, little-endian -/
def leBytes : Nat → Nat → List Nat
  | 0, _ => []
  | w + 1, v => v % 256 :: leBytes w (v / 256)

/-- `readw` (fec_base.h:318-350) from a stream with the bytes `s` left: the word
and the rest, or nothing when `read` fails -/
def readw (word_size : Nat) (s : List Nat) : Res (Option (Nat × List Nat)) := do
  cassert (decide (word_size = 1 ∨ word_size = 2 ∨ word_size = 4 ∨ word_size = 8 ∨ word_size = 16))
  if s.length < word_size then pure none
  else pure (some (leVal (s.take word_size), s.drop word_size))

/-- `writew` (fec_base.h:357-384): appends the `word_size` low bytes -/
def writew (word_size : Nat) (val : Nat) (s : List Nat) : Res (List Nat) := do
  cassert (decide (word_size = 1 ∨ word_size = 2 ∨ word_size = 4 ∨ word_size = 8 ∨ word_size = 16))
  pure (s ++ leBytes word_size val)

/-- reading one word from each of the streams `idx 0 .. idx (count-1)` into
`words` from index `dst` (fec_base.h:434-441, 630-649): the words, the streams,
and `cont`.  A null stream is undefined behaviour. -/
def readRow (word_size count dst : Nat) (idx : Nat → Res Nat) (streams : Array (Option (List Nat)))
    (words : Array Nat) : Res (Array (Option (List Nat)) × Array Nat × Bool) :=
  forN count (streams, words, true) (fun i st =>
    if st.2.2 = false then .ok st else do
      let j ← idx i
      let s ← rd st.1 j
      match s with
      | none => ub
      | some s => do
        let r ← readw word_size s
        match r with
        | none => pure (st.1, st.2.1, false)
        | some (v, rest) => do
          let streams ← wr st.1 j (some rest)
          let words ← wr st.2.1 (dst + i) v
          pure (streams, words, true))

/-- the loop of `encode_streams_horizontal` (fec_base.h:431-459) -/
def Fec.encLoop {Γ : Type} (E : Fec Γ) : Nat → Array (Option (List Nat)) → Array (List Nat) → Array Properties → Array Nat →
    Array Nat → Nat → Res (Array (List Nat) × Array Properties)
  | 0, _, _, _, _, _, _ => .error .diverges
  | fuel + 1, ins, outs, props, words, output, offset => do
    let words := Array.replicate words.size 0
    let (ins, words, cont) ← readRow E.base.word_size E.base.n_data 0 (fun i => .ok i) ins words
    if cont then do
      let (output, props) ← E.encode output props offset words
      let outs ← forN E.base.n_outputs outs (fun i outs => do
        let v ← rd output i
        let s ← rd outs i
        let s ← writew E.base.word_size v s
        wr outs i s)
      encLoop E fuel ins outs props words output (offset + 1)
    else pure (outs, props)

/-- `encode_streams_horizontal` (fec_base.h:408-460): what was written to the
output streams, and the properties.  The fuel is one more than the number of
words the first stream can hold. -/
def Fec.encode_streams_horizontal {Γ : Type} (E : Fec Γ) (input_data : Array (List Nat)) (outs : Array (List Nat))
    (props : Array Properties) (mem : Nat → Nat) : Res (Array (List Nat) × Array Properties) := do
  cassert (decide (input_data.size = E.base.n_data))
  cassert (decide (outs.size = E.base.n_outputs))
  cassert (decide (props.size = E.base.n_outputs))
  let props := props.map Properties.clear
  E.encLoop ((gt input_data 0).length + 2) (input_data.map some) outs props (fresh mem E.base.n_data)
    (fresh mem E.get_n_outputs) 0

/-- selection of the fragments (fec_base.h:581-619): `fragments_ids`,
`avail_parity_ids` and the number of available data fragments, or `none` when
there are too few.  With all data fragments present the caller returns at once:
`allData`. -/
inductive Select where
  | allData
  | tooFew
  | use (fragments_ids avail_parity_ids : Array Nat) (avail_data_nb : Nat)
  deriving DecidableEq, Repr

def FecBase.selectFragments (B : FecBase) (data parities : Array Bool) (mem : Nat → Nat) : Res Select := do
  let ids := fresh mem B.n_data
  let (ids, fi) ← (if B.sys then
    forN B.n_data (ids, 0) (fun i s => do
      let present ← rd data i
      if present then do
        let ids ← wr s.1 s.2 i
        pure (ids, s.2 + 1)
      else pure s)
    else pure (ids, 0))
  let avail_data_nb := fi
  if B.sys = true ∧ fi = B.n_data then pure .allData
  else do
    let apar := fresh mem (B.n_data - avail_data_nb)
    let (ids, apar, fi, _) ← (if fi < B.n_data then
      forN B.n_outputs (ids, apar, fi, 0) (fun i s =>
        if s.2.2.1 = B.n_data then .ok s else do
          let present ← rd parities i
          if present then do
            let ids ← wr s.1 s.2.2.1 (if B.sys then B.n_data + i else i)
            let apar ← wr s.2.1 s.2.2.2 i
            pure (ids, apar, s.2.2.1 + 1, s.2.2.2 + 1)
          else pure s)
      else pure (ids, apar, fi, 0))
    if fi < B.n_data then pure .tooFew
    else pure (.use ids apar avail_data_nb)

/-- writing the decoded words to the output streams that exist
(fec_base.h:669-674) -/
def writeData (word_size n : Nat) (output : Array Nat) (outs : Array (Option (List Nat))) :
    Res (Array (Option (List Nat))) :=
  forN n outs (fun i outs => do
    let o ← rd outs i
    match o with
    | none => pure outs
    | some s => do
      let v ← rd output i
      let s ← writew word_size v s
      wr outs i (some s))

/-- the loop of `decode_streams_horizontal` (fec_base.h:628-676) -/
def Fec.decLoop {Γ : Type} (E : Fec Γ) (ids apar : Array Nat) (nd : Nat) : Nat → Array (Option (List Nat)) →
    Array (Option (List Nat)) → Array (Option (List Nat)) → Array Properties → Γ → Array Nat → Array Nat → Nat →
    Res (Array (Option (List Nat)))
  | 0, _, _, _, _, _, _, _, _ => .error .diverges
  | fuel + 1, datas, pars, outs, props, C, words, output, offset => do
    let words := Array.replicate words.size 0
    let (datas, words, cont) ←
      if E.base.sys then readRow E.base.word_size nd 0 (fun i => rd ids i) datas words
      else pure (datas, words, true)
    if cont then do
      let (pars, words, cont) ←
        readRow E.base.word_size (E.base.n_data - nd) nd (fun i => rd apar i) pars words
      if cont then do
        let (C, output) ← E.decode C output props offset words
        let outs ← writeData E.base.word_size E.base.n_data output outs
        decLoop E ids apar nd fuel datas pars outs props C words output (offset + 1)
      else pure outs
    else pure outs

/-- bound on the number of words in the streams -/
def maxLen (a : Array (Option (List Nat))) : Nat :=
  a.foldl (fun m s => max m (s.getD []).length) 0

/-- `decode_streams_horizontal` (fec_base.h:559-680): the returned
value and what was written to the output streams (a null output is skipped).
`decode_add_data` and `decode_add_parities` are called during the selection in the code;
here they are part of `init_context_dec`, because they only change the state `Γ`,
which nothing reads before. -/
def Fec.decode_streams_horizontal {Γ : Type} (E : Fec Γ) (datas pars : Array (Option (List Nat))) (props : Array Properties)
    (outs : Array (Option (List Nat))) (mem : Nat → Nat) : Res (Bool × Array (Option (List Nat))) := do
  let B := E.base
  if B.sys then cassert (decide (datas.size = B.n_data)) else pure ()
  cassert (decide (pars.size = B.n_outputs))
  cassert (decide (props.size = B.n_outputs))
  cassert (decide (outs.size = B.n_data))
  let sel ← B.selectFragments (datas.map Option.isSome) (pars.map Option.isSome) mem
  match sel with
  | .allData => pure (true, outs)
  | .tooFew => pure (false, outs)
  | .use ids apar nd => do
    let n_words := if B.sys then B.n_data else B.code_len
    let (C, props) ← E.init_context_dec ids props mem
    let outs ← E.decLoop ids apar nd (maxLen datas + maxLen pars + 2) datas pars outs props C
      (fresh mem n_words) (fresh mem B.n_data) 0
    pure (true, outs)

/-! ### the FNT code -/

namespace RsFnt

/-- `init_others` (fec_rs_fnt.h:130-144) and `init_context` tables: powers of
`inv_r` and `r` -/
def powers (F : GF) (x len : Nat) (mem : Nat → Nat) : Res (Array Nat) :=
  forN len (fresh mem len) (fun i v => wr v i (F.exp x i))

/-- constructor of `RsFnt<T>` with `T` of `b` bits and double size `db`
(fec_base.h:297-316, fec_rs_fnt.h:69-160); the buffers of the systematic mode
are in Model/FecBuf.lean -/
def mkBase (b db : Nat) (sys : Bool) (word_size n_data n_parities pkt_size : Nat) (mem : Nat → Nat) : Res FecBase := do
  cassert (decide (word_size < 4))
  let gf_p := wrap b (2 ^ (8 * word_size) + 1)
  let O ← RingModN.init ⟨b, db, true, gf_p⟩ 0
  let j ← Arith.jacobi O.root O.ring.card
  cassert (decide (j = -1))
  let F := O.gf
  let n ← F.codeLenHC (n_parities + n_data)
  let r ← F.nthRoot n
  let m ← Arith.ceil2 32 n_data
  let fft ← Radix2.mk' F n m
  cassert (decide (2 * n_data < F.card))
  let len_2k ← F.codeLenHC (2 * n_data)
  let fft_2k ← Radix2.mk' F len_2k len_2k
  let inv_r ← F.inv r
  let inv_r_powers ← powers F inv_r (n_data + 1) mem
  let r_powers ← powers F r n mem
  pure { sys := sys, word_size := word_size, n_data := n_data, n_parities := n_parities,
         code_len := n_data + n_parities, n_outputs := if sys then n_parities else n_data + n_parities,
         pkt_size := pkt_size, n := n, r := r, F := F, fft := fft.ft pkt_size, fft_2k := fft_2k.ft pkt_size,
         inv_r_powers := inv_r_powers, r_powers := r_powers }

/-- `encode_post_process(Vector)` (fec_rs_fnt.h:188-202) -/
def encode_post_process (B : FecBase) (output : Array Nat) (props : Array Properties) (offset : Nat) :
    Res (Array Nat × Array Properties) :=
  let thres := B.F.card - 1
  forN B.n_outputs (output, props) (fun i s => do
    let v ← rd s.1 i
    if v &&& thres ≠ 0 then do
      let P ← rd s.2 i
      let props ← wr s.2 i (P.add offset OOR_MARK)
      let output ← wr s.1 i 0
      pure (output, props)
    else pure s)

/-- `encode(Vector)` (fec_rs_fnt.h:178-186) -/
def encode (B : FecBase) (output : Array Nat) (props : Array Properties) (offset : Nat) (words : Array Nat) :
    Res (Array Nat × Array Properties) := do
  let output ← B.fft.fft output words
  encode_post_process B output props offset

/-- an `RsFnt<T>` object for the word-level functions -/
def fec (B : FecBase) : Fec Ctx where
  base := B
  get_n_outputs := if B.sys then B.n_parities else B.n
  encode := encode B
  init_context_dec := B.init_context_dec
  decode := B.decode

end RsFnt
end Quad
