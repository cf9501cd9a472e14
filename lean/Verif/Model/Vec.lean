import Verif.Model.Buffers

/-!
# Model of src/vec_vector.h, vec_slice.h, vec_view.h, vec_zero_ext.h

Vectors in memory.  A pointer `T*` is a block of the heap and an offset in it;
several vectors can share a block.  Which member functions go through the
virtual `get`/`set` and which use `mem` directly is kept, since the derived
classes only override the former.

Lengths and offsets, `int` in C++, are naturals.  The destructor and the move
operations are in `Verif.Model.Life`; an object refers to another one (`vec` in `View`
and `ZeroExtended`) by a copy of its fields, so that it does not follow later
changes of that object's fields (its elements are in the heap).
-/

namespace Quad.Vec

/-- a pointer `T*` -/
structure Ptr where
  blk : Nat
  off : Nat
  deriving DecidableEq, Repr

/-- `p[i]` -/
def Ptr.rd (H : Heap) (p : Ptr) (i : Nat) : Res Nat := Heap.rdEl H p.blk (p.off + i)

/-- `p[i] = x` -/
def Ptr.wr (H : Heap) (p : Ptr) (i x : Nat) : Res Heap := Heap.wrEl H p.blk (p.off + i) x

/-- `p + k`: undefined when it leaves the block -/
def Ptr.add (H : Heap) (p : Ptr) (k : Nat) : Res Ptr := do
  let b ← Quad.rd H p.blk
  if p.off + k ≤ b.size then ok ⟨p.blk, p.off + k⟩ else ub

/-- `std::copy_n(src, len, dst)`: undefined (`std::copy`) when `dst` is inside
the source range and is not its beginning -/
def copy_n (H : Heap) (src : Ptr) (len : Nat) (dst : Ptr) : Res Heap :=
  if src.blk = dst.blk ∧ src.off < dst.off ∧ dst.off < src.off + len then ub
  else forN len H (fun i H => do
    let x ← src.rd H i
    dst.wr H i x)

/-- `std::memset(dst, 0, sizeof(T) * len)` -/
def zero_n (H : Heap) (dst : Ptr) (len : Nat) : Res Heap :=
  forN len H (fun i H => dst.wr H i 0)

/-- members of `vec::Vector<T>` (vec_vector.h:121-128), without the ring -/
structure Base where
  n : Nat
  mem : Ptr
  mem_len : Nat
  new_mem : Bool
  deriving DecidableEq, Repr

/-- a vector of one of the four classes, with the members each adds:
`Slice` (vec_slice.h:64-67), `ZeroExtended` (vec_zero_ext.h:60-63),
`View` (vec_view.h:66-70) -/
inductive Obj where
  | vector (v : Base)
  | slice (v : Base) (mem_offset : Ptr) (base_len offset : Nat)
  | zeroExt (v : Base) (vec : Obj) (n : Nat)
  | view (v : Base) (vec : Obj) (offset step N : Nat)

namespace Obj

/-- the `Vector<T>` subobject -/
def base : Obj → Base
  | vector v => v
  | slice v _ _ _ => v
  | zeroExt v _ _ => v
  | view v _ _ _ _ => v

/-- virtual `get_n` (vec_vector.h:218-222, vec_zero_ext.h:74-78, vec_view.h:85-89) -/
def get_n : Obj → Nat
  | vector v => v.n
  | slice v _ _ _ => v.n
  | zeroExt _ _ n => n
  | view v _ _ _ _ => v.n

/-- `get_mem` (vec_vector.h:263-267) -/
def get_mem (o : Obj) : Ptr := o.base.mem

/-- `get_mem_len` (vec_vector.h:224-228) -/
def get_mem_len (o : Obj) : Nat := o.base.mem_len

/-- virtual `get` (vec_vector.h:255-261, vec_slice.h:88-94, vec_zero_ext.h:80-86,
vec_view.h:91-98) -/
def get (H : Heap) : Obj → Nat → Res Nat
  | vector v, i => do
      cassert (decide (i < v.n))
      v.mem.rd H i
  | slice v mem_offset _ _, i => do
      cassert (decide (i < v.n))
      mem_offset.rd H i
  | zeroExt _ vec n, i => do
      cassert (decide (i < n))
      if i < vec.get_n then vec.get H i else ok 0
  | view v vec offset step N, i => do
      cassert (decide (i < v.n))
      if N = 0 then ub else vec.get H ((offset + step * i) % N)

/-- virtual `set` (vec_vector.h:247-253, vec_slice.h:110-116, vec_view.h:123-130);
not overridden in `ZeroExtended` -/
def set (H : Heap) : Obj → Nat → Nat → Res Heap
  | vector v, i, x => do
      cassert (decide (i < v.n))
      v.mem.wr H i x
  | slice v mem_offset _ _, i, x => do
      cassert (decide (i < v.n))
      mem_offset.wr H i x
  | zeroExt v _ _, i, x => do
      cassert (decide (i < v.n))
      v.mem.wr H i x
  | view v vec offset step N, i, x => do
      cassert (decide (i < v.n))
      if N = 0 then ub else vec.set H ((offset + step * i) % N) x

/-! ## Constructors -/

/-- `Vector(rn, n)` (vec_vector.h:138-151): a new block of `n` elements, with
contents `junk` -/
def new (junk : Nat → Nat) (H : Heap) (n : Nat) : Heap × Obj :=
  (H.push (fresh junk n), vector ⟨n, ⟨H.size, 0⟩, n, true⟩)

/-- `Vector(rn, n, mem, mem_len)` with a `mem` that is not null (vec_vector.h:138-151) -/
def wrapMem (n : Nat) (mem : Ptr) (mem_len : Nat) : Obj := vector ⟨n, mem, mem_len, false⟩

/-- `Vector(rn, values)` (vec_vector.h:153-161) -/
def ofList (junk : Nat → Nat) (H : Heap) (values : Array Nat) : Res (Heap × Obj) := do
  let (H, o) := new junk H values.size
  let H ← forN values.size H (fun i H => do
    let x ← rd values i
    o.get_mem.wr H i x)
  ok (H, o)

/-- copy constructor (vec_vector.h:163-175) -/
def copyOf (junk : Nat → Nat) (H : Heap) (other : Obj) : Res (Heap × Obj) :=
  let v := other.base
  if v.new_mem then do
    let H1 := H.push (fresh junk v.mem_len)
    let mem : Ptr := ⟨H.size, 0⟩
    let H2 ← copy_n H1 v.mem v.mem_len mem
    ok (H2, vector { v with mem := mem })
  else ok (H, vector v)

/-- the length of a slice of `n` elements at `offset` (vec_slice.h:81-85, 102-106) -/
def sliceLen (n offset base_len : Nat) : Nat :=
  if n + offset < base_len then n else if base_len > offset then base_len - offset else 0

/-- `Slice(vec, n, offset)` (vec_slice.h:70-86) -/
def mkSlice (H : Heap) (vec : Obj) (n offset : Nat) : Res Obj := do
  let mem ← vec.get_mem.add H offset
  let mem_len := if vec.get_mem_len > offset then vec.get_mem_len - offset else 0
  ok (slice ⟨sliceLen n offset vec.get_n, mem, mem_len, false⟩ mem vec.get_n offset)

/-- `Slice::set_map(offset)` (vec_slice.h:96-108).  The intermediate pointer
`mem_offset - this->offset` is the beginning of the underlying vector. -/
def sliceMap (H : Heap) (o : Obj) (offset : Nat) : Res Obj :=
  match o with
  | slice v mem_offset base_len off => do
      if mem_offset.off < off then ub else pure ()
      let mem_offset ← Ptr.add H ⟨mem_offset.blk, mem_offset.off - off⟩ offset
      let n := sliceLen v.n offset base_len
      ok (slice ⟨n, mem_offset, n, false⟩ mem_offset base_len offset)
  | o => ok o

/-- `ZeroExtended(vec, n)` (vec_zero_ext.h:66-72) -/
def mkZeroExt (vec : Obj) (n : Nat) : Obj :=
  zeroExt ⟨n, vec.get_mem, vec.get_mem_len, false⟩ vec n

/-- `View(vec, n, offset, step)` (vec_view.h:73-83) -/
def mkView (vec : Obj) (n offset step : Nat) : Res Obj := do
  cassert (decide (n ≤ vec.get_n))
  ok (view ⟨n, vec.get_mem, vec.get_mem_len, false⟩ vec offset step vec.get_n)

/-- `View::set_map(offset, step)` (vec_view.h:100-105) -/
def viewMap (o : Obj) (offset step : Nat) : Obj :=
  match o with
  | view v vec _ _ N => view v vec offset step N
  | o => o

/-- `View::set_len(n)` (vec_view.h:107-112): the assertion is about the old
length -/
def viewLen (o : Obj) (n : Nat) : Res Obj :=
  match o with
  | view v vec offset step N => do
      cassert (decide (v.n ≤ N))
      ok (view { v with n := n } vec offset step N)
  | o => ok o

/-- `View::set_vec(vec)` (vec_view.h:114-121): `mem` and `mem_len` keep
pointing to the old vector -/
def viewVec (o vec : Obj) : Res Obj :=
  match o with
  | view v _ offset step _ => do
      cassert (decide (v.n ≤ vec.get_n))
      ok (view v vec offset step vec.get_n)
  | o => ok o

/-! ## Member functions -/

/-- `zero_fill` (vec_vector.h:230-237) -/
def zero_fill (H : Heap) (o : Obj) : Res Heap := forN o.base.n H (fun i H => o.set H i 0)

/-- `fill(val)` (vec_vector.h:239-245) -/
def fill (H : Heap) (o : Obj) (val : Nat) : Res Heap :=
  forN o.base.n H (fun i H => o.base.mem.wr H i val)

/-- `mul_scalar(scalar)` (vec_vector.h:282-287) -/
def mul_scalar (F : GF) (H : Heap) (o : Obj) (scalar : Nat) : Res Heap :=
  forN o.base.n H (fun i H => do
    let x ← o.get H i
    o.set H i (F.mul x scalar))

/-- `mul_beta(beta)` (vec_vector.h:293-301) -/
def mul_beta (F : GF) (H : Heap) (o : Obj) (beta : Nat) : Res Heap := do
  let r ← forN (o.base.n - 1) (H, beta) (fun t s => do
    let x ← o.base.mem.rd s.1 (t + 1)
    let H ← o.base.mem.wr s.1 (t + 1) (F.mul x s.2)
    ok (H, F.mul s.2 beta))
  ok r.1

/-- `for (i = 0; i < len; i++) dest[i] = op(dest[i], src[i])` -/
def zipMem (op : Nat → Nat → Nat) (H : Heap) (dest src : Ptr) (len : Nat) : Res Heap :=
  forN len H (fun i H => do
    let x ← dest.rd H i
    let y ← src.rd H i
    dest.wr H i (op x y))

/-- `hadamard_mul(v)` (vec_vector.h:307-314, gf_ring.h:824-830) -/
def hadamard_mul (F : GF) (H : Heap) (o v : Obj) : Res Heap := do
  cassert (decide (o.base.n = v.get_n))
  zipMem F.mul H o.base.mem v.get_mem o.base.n

/-- `add(v)` (vec_vector.h:316-324) -/
def add (F : GF) (H : Heap) (o v : Obj) : Res Heap := do
  cassert (decide (o.base.n = v.get_n))
  zipMem F.add H o.base.mem v.get_mem o.base.n

/-- `add(v, offset)` (vec_vector.h:326-336) -/
def addAt (F : GF) (H : Heap) (o v : Obj) (offset : Nat) : Res Heap := do
  cassert (decide (o.base.n ≥ v.get_n + offset))
  let dest ← o.base.mem.add H offset
  zipMem F.add H dest v.get_mem v.get_n

/-- `add_mutual(v)` (vec_vector.h:338-347) -/
def add_mutual (F : GF) (H : Heap) (o v : Obj) : Res Heap := do
  cassert (decide (o.base.n ≥ v.get_n))
  zipMem F.add H o.base.mem v.get_mem v.get_n

/-- `add_mutual(v, offset)` (vec_vector.h:349-358) -/
def add_mutualAt (F : GF) (H : Heap) (o v : Obj) (offset : Nat) : Res Heap := do
  cassert (decide (v.get_n = 0 ∨ o.base.n ≥ v.get_n + offset))
  let dest ← o.base.mem.add H offset
  zipMem F.add H dest v.get_mem v.get_n

/-- `add_mutual(v, offset, len)` (vec_vector.h:360-369) -/
def add_mutualLen (F : GF) (H : Heap) (o v : Obj) (offset len : Nat) : Res Heap := do
  cassert (decide (len = 0 ∨ o.base.n ≥ len + offset))
  cassert (decide (v.get_n ≥ len))
  let dest ← o.base.mem.add H offset
  zipMem F.add H dest v.get_mem len

/-- the copy common to the overloads: `n` elements from the `src_len` ones at
`src`, the missing ones zero (vec_vector.h:383-388, 397-402, 412-417) -/
def copyZ (H : Heap) (src : Ptr) (src_len n : Nat) (dest : Ptr) : Res Heap :=
  if src_len ≥ n then copy_n H src n dest
  else do
    let H ← copy_n H src src_len dest
    let d ← dest.add H src_len
    zero_n H d (n - src_len)

/-- `copy(v)` (vec_vector.h:371-376) -/
def copy (H : Heap) (o v : Obj) : Res Heap := do
  cassert (decide (v.get_mem_len ≤ o.base.mem_len))
  copy_n H v.get_mem v.get_mem_len o.base.mem

/-- `copy(v, n)` (vec_vector.h:378-389) -/
def copyN (H : Heap) (o v : Obj) (n : Nat) : Res Heap := do
  cassert (decide (n ≤ o.base.mem_len))
  copyZ H v.get_mem v.get_mem_len n o.base.mem

/-- `copy(v, n, offset)` (vec_vector.h:391-403) -/
def copyAt (H : Heap) (o v : Obj) (n offset : Nat) : Res Heap := do
  cassert (decide (n + offset ≤ o.base.mem_len))
  let dest ← o.base.mem.add H offset
  copyZ H v.get_mem v.get_mem_len n dest

/-- `copy(v, n, dest_offset, src_offset)` (vec_vector.h:405-418).  A
`src_offset` larger than the source's memory makes `src_len` negative: the
`memset` then starts before `dest` and its length exceeds what is asked for;
undefined, as is already the pointer `src` when it leaves its block. -/
def copyFrom (H : Heap) (o v : Obj) (n dest_offset src_offset : Nat) : Res Heap := do
  cassert (decide (n + dest_offset ≤ o.base.mem_len))
  let dest ← o.base.mem.add H dest_offset
  let src ← v.get_mem.add H src_offset
  if v.get_mem_len < src_offset then ub
  else copyZ H src (v.get_mem_len - src_offset) n dest

/-- elements `i`, …, `i + k - 1` of the comparison loop (vec_vector.h:426-430) -/
def eqFrom (H : Heap) (l r : Obj) : Nat → Nat → Res Bool
  | 0, _ => ok true
  | k + 1, i => do
      let x ← l.get H i
      let y ← r.get H i
      if x ≠ y then ok false else eqFrom H l r k (i + 1)

/-- `operator==` (vec_vector.h:420-432) -/
def eq (H : Heap) (l r : Obj) : Res Bool :=
  if l.base.n ≠ r.base.n then ok false else eqFrom H l r l.base.n 0

/-- `neg` (vec_vector.h:434-439) -/
def neg (F : GF) (H : Heap) (o : Obj) : Res Heap :=
  forN o.base.n H (fun i H => do
    let x ← o.base.mem.rd H i
    o.base.mem.wr H i (F.neg x))

/-- the elements `mem[0]`, …, `mem[k - 1]` -/
def load (H : Heap) (p : Ptr) (k : Nat) : Res (Array Nat) :=
  forN k #[] (fun i a => do
    let x ← p.rd H i
    ok (a.push x))

/-- `sort` (vec_vector.h:450-454).  `std::sort(mem, mem + n)` is taken to leave
the elements of the range in non-decreasing order; the sequence is determined
by that. -/
def sort (H : Heap) (o : Obj) : Res Heap := do
  let a ← load H o.base.mem o.base.n
  let s := (a.toList.mergeSort (fun x y => decide (x ≤ y))).toArray
  forN o.base.n H (fun i H => do
    let x ← rd s i
    o.base.mem.wr H i x)

/-- `swap(i, j)` (vec_vector.h:456-461) -/
def swap (H : Heap) (o : Obj) (i j : Nat) : Res Heap := do
  let x ← o.base.mem.rd H i
  let y ← o.base.mem.rd H j
  let H ← o.base.mem.wr H i y
  o.base.mem.wr H j x

end Obj

end Quad.Vec
