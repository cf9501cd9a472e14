import Verif.Model.FecFft
import Verif.Model.FftAdd

/-!
# Model of src/fec_rs_gf2n_fft_add.h

The code is non-systematic and only has the functions on words.  `init_context_dec` passes `*(this->fft_2k)` to the context
although that pointer is null (fec_rs_gf2n_fft_add.h:151); the context only tests its address.  The model takes the null pointer
for what it is, as compilers do, although binding a reference to it is undefined.
-/

namespace Quad
namespace RsGf2nFftAdd

/-- members: those of the base class, and `betas` (fec_rs_gf2n_fft_add.h:117-118); the member `fft` (237) is in the
place of the one of the base class -/
structure Code where
  base : FecBase
  betas : Array Nat

/-- the context with its polynomial `S` (fec_context.h:118-122), which is not part of `Ctx` -/
structure Context where
  ctx : Ctx
  S : Poly

/-- the constructor of `RsGf2nFftAdd<T>` (fec_base.h:297-316, fec_rs_gf2n_fft_add.h:52-89) with words of `b` bits.  The members of
the base class that are not initialised have arbitrary values here: they are not read. -/
def mkCode (b word_size n_data n_parities : Nat) (mem : Nat → Nat) (junk : Nat → Nat → Nat)
    (junk3 : Nat → Nat → Nat → Nat) : Res Code := do
  cassert (decide (word_size ≤ 16))
  let O ← BinExt.mk' b (8 * word_size) junk junk3
  let O ← O.init
  let F := O.gf
  let n ← Arith.ceil2 b (n_data + n_parities : Nat)
  let m ← Arith.log2 n
  let Ls ← Additive.mk' F b O.root m mem
  let betas ← Additive.compute_B F b Ls (fresh mem n) mem
  let fft := Additive.ft F b Ls mem
  pure { base := { sys := false, word_size := word_size, n_data := n_data, n_parities := n_parities,
                   code_len := n_data + n_parities, n_outputs := n_data + n_parities, pkt_size := 8, n := n, r := 0, F := F,
                   fft := fft, fft_2k := fft, inv_r_powers := #[], r_powers := #[] },
         betas := betas }

/-- the points of the fragments and the last index of the zero point (fec_rs_gf2n_fft_add.h:136-145) -/
def points (c : Code) (fragments_ids vx : Array Nat) : Res (Array Nat × Option Nat) :=
  forN c.base.n_data (vx, none) (fun i s => do
    let j ← rd fragments_ids i
    let val ← rd c.betas j
    let vx ← wr s.1 i val
    pure (vx, if val = 0 then some i else s.2))

/-- `init_context_dec` (fec_rs_gf2n_fft_add.h:121-160) -/
def init_context_dec (c : Code) (fragments_ids : Array Nat) (input_props : Array Properties) (mem : Nat → Nat) :
    Res (Context × Array Properties) := do
  let (vx, vx_zero) ← points c fragments_ids (fresh mem c.base.n_data)
  let (C, props) ← Ctx.mk' c.base.F c.base.fft none fragments_ids input_props vx c.base.n_data c.base.n vx_zero mem
  pure ({ ctx := C, S := (Poly.mk' (fresh mem c.base.n_data)).zero_fill }, props)

/-- coefficient `j` of the truncated series (fec_rs_gf2n_fft_add.h:205-212) -/
def coefS (F : GF) (vx vec1_n : Array Nat) (vx_zero : Option Nat) (k j : Nat) : Res Nat :=
  forN k 0 (fun i val =>
    if some i = vx_zero then pure val
    else do
      let x ← rd vx i
      let xi_j_1 ← F.inv (F.exp x j)
      let y ← rd vec1_n i
      pure (F.add val (F.mul y xi_j_1)))

/-- the term of the zero point (fec_rs_gf2n_fft_add.h:216-227) -/
def addZero (F : GF) (A S : Poly) (vec1_n : Array Nat) : Option Nat → Res Poly
  | none => .ok S
  | some z => do
    let a0 ← rd A.buf 0
    cassert (decide (a0 = 0))
    let val ← rd vec1_n z
    forN A.degree.toNat S (fun t S => do
      let s ← rd S.buf t
      let a ← rd A.buf (t + 1)
      S.set t (F.add s (F.mul val a)))

/-- `decode_apply` (fec_rs_gf2n_fft_add.h:171-233); the local vector `vx`, whose elements are written before they
are read, is zero at first -/
def decode_apply (c : Code) (C : Context) (output words : Array Nat) : Res (Context × Array Nat) := do
  let k := c.base.n_data
  let F := c.base.F
  let (vx, _) ← points c C.ctx.fragments_ids (Array.replicate k 0)
  let vec1_n ← forN k (Array.replicate C.ctx.vec1_n.size 0) (fun i v => do
    let x ← rd words i
    let a ← rd C.ctx.inv_A_i i
    wr v i (F.mul x a))
  let S ← forN k C.S (fun j S => do
    let val ← coefS F vx vec1_n C.ctx.vx_zero k j
    S.set j val)
  let S ← S.mul F C.ctx.A (k - 1)
  let S ← addZero F C.ctx.A S vec1_n C.ctx.vx_zero
  let output ← forN k output (fun i output => do
    let x ← rd S.buf i
    wr output i x)
  pure ({ ctx := { C.ctx with vec1_n := vec1_n }, S := S }, output)

/-- the virtual functions (fec_rs_gf2n_fft_add.h:91-109, 162-169: `decode_prepare` does nothing) -/
def fec (c : Code) : Fec Context where
  base := c.base
  get_n_outputs := c.base.n
  encode output props _ words := do
    let output ← c.base.transform output words
    pure (output, props)
  init_context_dec := init_context_dec c
  decode C output _ _ words := decode_apply c C output words

end RsGf2nFftAdd
end Quad
