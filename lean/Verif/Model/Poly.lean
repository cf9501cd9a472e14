import Verif.Model.Field

/-!
# Model of src/vec_poly.h
-/

namespace Quad

/-- A `vec::Poly<T>`: its coefficients (`n` is the size of the array) and the
member `degree` (vec_poly.h:47-70) -/
structure Poly where
  buf : Array Nat
  degree : Int
  deriving DecidableEq, Repr, Inhabited

namespace Poly

/-- constructor (vec_poly.h:72-79) on fresh memory with contents `mem` -/
def mk' (mem : Array Nat) : Poly := ⟨mem, -1⟩

/-- `buf[i]` for an `int` index -/
def rdI (a : Array Nat) (i : Int) : Res Nat := if i < 0 then ub else rd a i.toNat

/-- `buf[i] = x` for an `int` index -/
def wrI (a : Array Nat) (i : Int) (x : Nat) : Res (Array Nat) := if i < 0 then ub else wr a i.toNat x

/-- `set` (vec_poly.h:113-121) -/
def set (P : Poly) (exponent : Int) (coef : Nat) : Res Poly := do
  let b ← wrI P.buf exponent coef
  pure ⟨b, if exponent > P.degree ∧ coef > 0 then exponent else P.degree⟩

/-- `zero_fill` (vec_poly.h:237-241): the degree is not reset -/
def zero_fill (P : Poly) : Poly := ⟨Array.replicate P.buf.size 0, P.degree⟩

variable (F : GF)

/-- `derivative` (vec_poly.h:140-148) -/
def derivative (P : Poly) : Res Poly := do
  let b ← forN P.degree.toNat P.buf (fun t b => do
    let x ← rd b (t + 1)
    wr b t (F.mul ((t + 1) % F.p) x))
  let b ← wrI b P.degree 0
  pure ⟨b, P.degree - 1⟩

/-- `derivative_nf4` (vec_poly.h:151-160) -/
def derivative_nf4 (P : Poly) : Res Poly := do
  let b ← forN P.degree.toNat P.buf (fun t b => do
    let x ← rd b (t + 1)
    wr b t (F.mul (F.replicate ((t + 1) % F.p)) x))
  let b ← wrI b P.degree 0
  pure ⟨b, P.degree - 1⟩

/-- `eval` (vec_poly.h:162-173) -/
def eval (P : Poly) (x : Nat) : Res Nat := do
  let r ← rdI P.buf P.degree
  forN P.degree.toNat r (fun t r => do
    let y ← rd P.buf (P.degree.toNat - t - 1)
    pure (F.add (F.mul r x) y))

/-- inner loop of `mul` (vec_poly.h:190-199) -/
def mulCoef (buf b : Array Nat) (degree : Int) (deg : Nat) : Res Nat :=
  forN (min ((deg : Int) + 1) (degree + 1)).toNat 0 (fun deg_a val => do
    let val_a ← rd buf deg_a
    if val_a > 0 then do
      let val_b ← rd b (deg - deg_a)
      if val_b > 0 then pure (F.add val (F.mul val_a val_b)) else pure val
    else pure val)

/-- `mul` (vec_poly.h:184-202), `b` another polynomial; the degree is not updated -/
def mul (P b : Poly) (deg_out : Nat) : Res Poly := do
  cassert (decide (deg_out < P.buf.size))
  let r ← forN (deg_out + 1) P.buf (fun t buf => do
    let deg := deg_out - t
    let val ← mulCoef F buf b.buf P.degree deg
    wr buf deg val)
  pure ⟨r, P.degree⟩

/-- `mul_to_x_plus_coef` (vec_poly.h:217-228) -/
def mul_to_x_plus_coef (P : Poly) (coef : Nat) : Res Poly := do
  let val ← rdI P.buf P.degree
  let b ← forN P.degree.toNat P.buf (fun t b => do
    let deg := P.degree.toNat - t
    let lo ← rd b (deg - 1)
    let hi ← rd b deg
    wr b deg (F.add lo (F.mul hi coef)))
  let b0 ← rd b 0
  let b ← wr b 0 (F.mul b0 coef)
  set ⟨b, P.degree⟩ (P.degree + 1) val

/-- `neg` (vec_poly.h:230-235) -/
def neg (P : Poly) : Res Poly := do
  let b ← forN (P.degree + 1).toNat P.buf (fun i b => do
    let x ← rd b i
    wr b i (F.neg x))
  pure ⟨b, P.degree⟩

end Poly
end Quad
