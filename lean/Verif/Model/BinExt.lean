import Verif.Model.Field

/-!
# Model of src/gf_bin_ext.h: fields of `2^n` elements

`T` has `b` bits.  `assert(check(..))` on operands is not executed, as in a release
build: the theorems carry the validity of operands.  Tables are read through bounds
checks.
-/

namespace Quad

/-- Members of `BinExtension<T>` (gf_bin_ext.h:61-83); `split` stands for the three
members `mul_type`, `div_type` and `inv_type`, which the constructor always sets
together (gf_bin_ext.h:160-172). -/
structure BinExt where
  b : Nat
  n : Nat
  my_card : Nat
  sgroup_nb : Nat
  primitive_poly : Nat
  first_bit : Nat
  tab_nb : Nat
  gflog : Array Nat
  gfilog : Array Nat
  gfsplit : Array (Array (Array Nat))
  mask : Array Nat
  restricted : Bool
  split : Bool
  deriving Inhabited

namespace BinExt

/-- the polynomials (gf_bin_ext.h:111-137), truncated to `T` where they may not fit -/
def polynomial (b n : Nat) : Res Nat :=
  if n = 1 then .ok 0x1
  else if n = 2 then .ok 0x7
  else if n = 3 then .ok 0xb
  else if n = 4 then .ok 0x13
  else if n = 8 then .ok (wrap b 0x11d)
  else if n = 16 then .ok (wrap b 0x1100b)
  else if n = 32 then .ok 0x8d
  else if n = 64 then .ok 0x1b
  else if n = 128 then .ok 0x87
  else .error .assertFail

/-- `init_mask` (gf_bin_ext.h:240-249) -/
def init_mask (b n : Nat) (mask : Array Nat) : Res (Array Nat) := do
  let s ← forN n (mask, 1) (fun i s => do
    let mask ← wr s.1 i s.2
    pure (mask, wrap b (s.2 * 2)))
  pure s.1

/-- `setup_tables` (gf_bin_ext.h:251-266); the tables start with the contents `junk` -/
def setup_tables (b my_card primitive_poly : Nat) (junk : Nat → Nat → Nat) : Res (Array Nat × Array Nat) := do
  let s ← forN (my_card - 1) (Array.ofFn (fun i : Fin my_card => junk 0 i.1), Array.ofFn (fun i : Fin my_card => junk 1 i.1), 1)
    (fun log s => do
      let gflog ← wr s.1 s.2.2 log
      let gfilog ← wr s.2.1 log s.2.2
      let x := wrap b (s.2.2 * 2)
      pure (gflog, gfilog, if x &&& my_card ≠ 0 then x ^^^ primitive_poly else x))
  pure (s.1, s.2.1)

/-- `_mul_by_two` (gf_bin_ext.h:268-275) -/
def mul2 (b first_bit primitive_poly x : Nat) : Nat :=
  if x &&& first_bit > 0 then wrap b ((x ^^^ first_bit) * 2) ^^^ primitive_poly else wrap b (x * 2)

/-- `_shift_left` (gf_bin_ext.h:277-289) -/
def shift_left (b first_bit primitive_poly : Nat) (x : Nat) : Nat → Nat
  | 0 => x
  | k + 1 => shift_left b first_bit primitive_poly (mul2 b first_bit primitive_poly x) k

/-- read and write an entry of a two-dimensional table -/
def rd2 (a : Array (Array Nat)) (i j : Nat) : Res Nat := do
  let r ← rd a i
  rd r j

/-- write an entry of a two-dimensional table -/
def wr2 (a : Array (Array Nat)) (i j v : Nat) : Res (Array (Array Nat)) := do
  let r ← rd a i
  let r ← wr r j v
  wr a i r

/-- table `t` of `setup_split_tables` (gf_bin_ext.h:316-342) from its base; `g` is its
content before -/
def splitTable (mul2 : Nat → Nat) (base : Nat) (g : Array (Array Nat)) : Res (Array (Array Nat)) := do
  let g ← forN 256 g (fun j g => do
    let g ← wr2 g 0 j 0
    wr2 g j 0 0)
  let g ← wr2 g 1 1 base
  let g ← forStep 2 256 1 g (fun i g => do
    if i &&& 1 ≠ 0 then
      let x ← rd2 g (i ^^^ 1) 1
      wr2 g i 1 (x ^^^ base)
    else
      let x ← rd2 g (i / 2) 1
      wr2 g i 1 (mul2 x))
  forStep 1 256 1 g (fun i g => do
    let x ← rd2 g i 1
    forStep 2 256 1 g (fun j g => do
      if j &&& 1 ≠ 0 then
        let y ← rd2 g i (j ^^^ 1)
        wr2 g i j (y ^^^ x)
      else
        let y ← rd2 g i (j / 2)
        wr2 g i j (mul2 y)))

/-- `setup_split_tables` (gf_bin_ext.h:298-347); the tables start with the contents `junk` -/
def setup_split_tables (mul2 : Nat → Nat) (tab_nb : Nat) (junk : Nat → Nat → Nat → Nat) :
    Res (Array (Array (Array Nat))) := do
  let s ← forN tab_nb (#[], 1) (fun t s => do
    let g ← splitTable mul2 s.2 (Array.ofFn (fun i : Fin 256 => Array.ofFn (fun j : Fin 256 => junk t i.1 j.1)))
    pure (s.1.push g, Nat.repeat mul2 8 s.2))
  pure s.1

/-- The constructor (gf_bin_ext.h:104-173).  `junk` and `junk3` are the contents of
the arrays obtained from `new`.  Not modelled: the base class `Field<T>(2, n)`, whose
members `_card` and `sub_field` are not used by this class. -/
def mk' (b n : Nat) (junk : Nat → Nat → Nat) (junk3 : Nat → Nat → Nat → Nat) : Res BinExt := do
  cassert (decide (n / 8 ≤ b / 8))
  let poly ← polynomial b n
  let restricted := decide (n / 8 = b / 8)
  let mask ← init_mask b n (Array.ofFn (fun i : Fin n => junk 2 i.1))
  let first_bit ← rd mask (n - 1)
  let my_card := if restricted then
      if n ≤ 64 then 2 ^ b - 1 else wrap b (mask.foldl (· + ·) 0)
    else wrap b (2 * first_bit)
  if n ≤ 16 then do
    let (gflog, gfilog) ← setup_tables b my_card poly junk
    pure { b := b, n := n, my_card := my_card, sgroup_nb := 0, primitive_poly := poly, first_bit := first_bit, tab_nb := n / 4 - 1,
           gflog := gflog, gfilog := gfilog, gfsplit := #[], mask := mask, restricted := restricted, split := false }
  else do
    let g ← setup_split_tables (mul2 b first_bit poly) (n / 4 - 1) junk3
    pure { b := b, n := n, my_card := my_card, sgroup_nb := n / 8, primitive_poly := poly, first_bit := first_bit, tab_nb := n / 4 - 1,
           gflog := #[], gfilog := #[], gfsplit := g, mask := mask, restricted := restricted, split := true }

variable (F : BinExt)

/-- `card` (gf_bin_ext.h:349-353) -/
def card : Nat := F.my_card

/-- `card_minus_one` (gf_bin_ext.h:355-361) -/
def cardM1 : Nat := if F.restricted then F.my_card else F.my_card - 1

/-- `check` (gf_bin_ext.h:363-369) -/
def check (a : Nat) : Bool := if F.restricted then decide (a ≤ F.my_card) else decide (a < F.my_card)

/-- `add` (gf_bin_ext.h:371-379) -/
def add (_ : BinExt) (x y : Nat) : Nat := x ^^^ y

/-- `sub` (gf_bin_ext.h:381-388) -/
def sub (_ : BinExt) (x y : Nat) : Nat := x ^^^ y

/-- `neg`, not overridden: `sub(0, a)` (gf_ring.h:205-211) -/
def neg (x : Nat) : Nat := F.sub 0 x

/-- `_mul_log` (gf_bin_ext.h:405-420) -/
def mulLog (x y : Nat) : Res Nat :=
  if x = 0 ∨ y = 0 then .ok 0
  else do
    let lx ← rd F.gflog x
    let ly ← rd F.gflog y
    let sum_log := wrap F.b (lx + ly)
    rd F.gfilog (if sum_log ≥ F.my_card - 1 then sum_log - (F.my_card - 1) else sum_log)

/-- `_mul_split` (gf_bin_ext.h:422-443) -/
def mulSplit (x y : Nat) : Res Nat := do
  let s ← forN F.sgroup_nb (0, x) (fun i s => do
    let t ← forN F.sgroup_nb (s.1, y) (fun j t => do
      let g ← rd F.gfsplit (i + j)
      let v ← rd2 g (s.2 &&& 0xff) (t.2 &&& 0xff)
      pure (t.1 ^^^ v, t.2 >>> 8))
    pure (t.1, s.2 >>> 8))
  pure s.1

/-- `mul` (gf_bin_ext.h:390-403) -/
def mulR (x y : Nat) : Res Nat := if F.split then F.mulSplit x y else F.mulLog x y

/-- `mul` as a word: 0 stands for a read outside a table, which does not happen on
valid operands -/
def mul (x y : Nat) : Nat := (F.mulR x y).toOption.getD 0

/-- `_deg_of` (gf_bin_ext.h:538-545) with `deg = max_deg`; below 0 the index wraps
around and the read is outside the table -/
def deg_of (x : Nat) : Nat → Res Nat
  | 0 => do
    let m ← rd F.mask 0
    if m &&& x = 0 then ub else pure 0
  | d + 1 => do
    let m ← rd F.mask (d + 1)
    if m &&& x = 0 then deg_of x d else pure (d + 1)

/-- variables of `_inv_ext_gcd`: `uv[a], uv[b], g[a], g[b], deg[a], deg[b]` -/
structure Euclid where
  ua : Nat
  ub : Nat
  ga : Nat
  gb : Nat
  da : Nat
  db : Nat

/-- the loop of `_inv_ext_gcd` (gf_bin_ext.h:569-580); `a ^= 1; b ^= 1` swaps the
variables.  The fuel is the number of turns. -/
def invLoop : Nat → Euclid → Res Nat
  | 0, _ => .error .diverges
  | fuel + 1, s =>
    if s.ua = 1 then .ok s.ga
    else do
      let t := if s.da < s.db then Euclid.mk s.ub s.ua s.gb s.ga s.db s.da else s
      let j := t.da - t.db
      let ua := t.ua ^^^ shift_left F.b F.first_bit F.primitive_poly t.ub j
      let ga := t.ga ^^^ shift_left F.b F.first_bit F.primitive_poly t.gb j
      let da ← F.deg_of ua (F.n - 1)
      let db ← F.deg_of t.ub (F.n - 1)
      invLoop fuel ⟨ua, t.ub, ga, t.gb, da, db⟩

/-- `_inv_ext_gcd` (gf_bin_ext.h:551-582) -/
def inv_ext_gcd (x : Nat) : Res Nat := do
  let d ← F.deg_of x (F.n - 1)
  F.invLoop (2 * F.n + 2) ⟨x, 0, 1, 0, d, F.n⟩

/-- `_div_log` (gf_bin_ext.h:470-487).  `diff_log` is an `int`, equal to the difference of two
logarithms below `2^16`. -/
def divLog (x y : Nat) : Res Nat :=
  if x = 0 then .ok 0
  else if y = 0 then .ok (2 ^ F.b - 1)
  else do
    let lx ← rd F.gflog x
    let ly ← rd F.gflog y
    rd F.gfilog (if lx < ly then lx + (F.my_card - 1) - ly else lx - ly)

/-- `_div_by_inv` (gf_bin_ext.h:460-468) -/
def divByInv (x y : Nat) : Res Nat := do
  let i ← F.inv_ext_gcd y
  F.mulR x i

/-- `div` (gf_bin_ext.h:445-458) -/
def div (x y : Nat) : Res Nat := if F.split then F.divByInv x y else F.divLog x y

/-- `inv` (gf_bin_ext.h:489-509) -/
def inv (x : Nat) : Res Nat := if F.split then F.inv_ext_gcd x else F.div 1 x

/-- `exp` (gf_bin_ext.h:511-518) -/
def exp (x e : Nat) : Nat := expQuick F.mul x e

/-- the loop of `log` (gf_bin_ext.h:529-533), `k` turns left -/
def logLoop (a y : Nat) : Nat → Nat → Nat → Res Nat
  | 0, _, _ => .error (.throws .noSolution)
  | k + 1, result, tmp => if tmp = y then .ok result else logLoop a y k (result + 1) (F.mul tmp a)

/-- `log` (gf_bin_ext.h:520-536) -/
def log (a y : Nat) : Res Nat := if y = 1 then .ok 0 else F.logLoop a y (F.my_card - 1) 1 a

/-- `find_primitive_root` (gf_bin_ext.h:202-238), entered with `root = 0` -/
def find_primitive_root (ds : List Nat) : Res Nat :=
  let h := F.cardM1
  if h = 1 then .ok 1
  else
    let r := RingModN.rootLoop F.exp ds (h - 1) 2
    if r = 0 then .error .assertFail else .ok r

/-- a field object after `init` -/
structure Obj where
  F : BinExt
  factors : List (Nat × Nat)
  all_primes_factors : List Nat
  proper_divisors : List Nat
  root : Nat
  deriving Inhabited

/-- `init` (gf_bin_ext.h:195-200) with `compute_factors_of_order` (gf_ring.h:453-466) -/
def init : Res Obj := do
  let h := F.cardM1
  let fs ← Arith.factor_prime F.b h
  let pds := Arith.get_proper_divisors_from h (fs.map Prod.fst)
  let root ← F.find_primitive_root pds
  pure { F := F, factors := fs, all_primes_factors := Arith.get_prime_factors_from fs, proper_divisors := pds, root := root }

namespace Obj
variable (O : Obj)

/-- `get_nth_root` (gf_ring.h:774-781) -/
def get_nth_root (n : Nat) : Res Nat := do
  let d ← Arith.gcd n O.F.cardM1
  if d = 0 then ub else pure (O.F.exp O.root (O.F.cardM1 / d))

/-- `get_code_len` (gf_ring.h:798-807) -/
def get_code_len (n : Nat) : Res Nat := do
  cassert (decide (n ≤ O.F.cardM1))
  Arith.get_code_len O.F.b O.F.cardM1 n

/-- `get_code_len_high_compo` (gf_ring.h:814-822) -/
def get_code_len_high_compo (n : Nat) : Res Nat := do
  cassert (decide (n ≤ O.F.cardM1))
  Arith.get_code_len_high_compo_factors O.F.b O.all_primes_factors n

/-- `get_inv_n_mod_p` (gf_base.h:115-119): `inv(n) % 2` -/
def get_inv_n_mod_p (n : Nat) : Res Nat := do
  let i ← O.F.inv n
  pure (i % 2)

/-- the vtable of a `BinExtension<T>` object -/
def gf : GF where
  card := O.F.card
  cardM1 := O.F.cardM1
  p := 2
  add := O.F.add
  sub := O.F.sub
  mul := O.F.mul
  neg := O.F.neg
  inv := O.F.inv
  div := O.F.div
  exp := O.F.exp
  mulC := O.F.mulR
  expC := expQuickC O.F.mulR
  omega := O.F.exp
  nthRoot := O.get_nth_root
  invN := O.get_inv_n_mod_p
  unit := 1
  replicate := fun a => a
  isNF4 := false
  codeLenHC := O.get_code_len_high_compo

end Obj

end BinExt
end Quad
