import Mathlib.Data.List.Perm.Basic

/-!
# Model of the ownership of memory: constructors, assignments and destructors of
src/vec_vector.h and src/vec_buffers.h

Only what decides who frees what is kept: which blocks are allocated, which
pointers an object holds, and whether it frees them.  A program is a sequence of
constructions, assignments, member function calls that change pointers, and
destructions, of any number of objects.

Allocation failure (`std::bad_alloc`) is not modelled, nor is the reuse of the
address of a freed block: a block freed twice is an error here, whether or not
its address has been handed out again in between.
-/

namespace Quad.Life

/-- a pointer `T*`: null, into an allocated block, or into memory that does not
come from the library's allocator -/
inductive Ptr where
  | null
  | heap (b : Nat)
  | ext (a : Nat)
  deriving DecidableEq, Repr

/-- how an operation can fail -/
inductive Fault where
  /-- `deallocate` is given a pointer that is not that of an allocated block -/
  | badFree
  /-- elements are read through a null pointer or in a freed block -/
  | badRead
  /-- an index out of a `std::vector` -/
  | outOfRange
  /-- an assertion fails -/
  | assertion
  /-- the program names an object that is not there -/
  | noObject
  deriving DecidableEq, Repr

abbrev Out := Except Fault

/-- allocated blocks, and the name of the next one -/
structure Mem where
  live : List Nat
  next : Nat
  deriving Repr

/-- `allocator.allocate(n)` (simd/allocator.h:81-114) -/
def alloc (M : Mem) : Ptr × Mem := (.heap M.next, ⟨M.next :: M.live, M.next + 1⟩)

/-- `allocator.deallocate(p, n)` (simd/allocator.h:116-133): nothing for a null
pointer -/
def free (p : Ptr) (M : Mem) : Out Mem :=
  match p with
  | .null => .ok M
  | .heap b => if b ∈ M.live then .ok { M with live := M.live.erase b } else .error .badFree
  | .ext _ => .error .badFree

/-- reading `len` elements from `p` on: allowed if there are none, or the memory
is there.  The number of elements in the block is not tracked here. -/
def readable (p : Ptr) (len : Nat) (M : Mem) : Out Unit :=
  if len = 0 then .ok ()
  else match p with
    | .null => .error .badRead
    | .heap b => if b ∈ M.live then .ok () else .error .badRead
    | .ext _ => .ok ()

/-! ## Vector -/

/-- members of `vec::Vector<T>` (vec_vector.h:121-128) -/
structure Vec where
  n : Nat
  mem : Ptr
  mem_len : Nat
  new_mem : Bool
  deriving DecidableEq, Repr

/-- `Vector(rn, n, mem, mem_len)` (vec_vector.h:138-151) -/
def Vec.mk' (n : Nat) (mem : Ptr) (mem_len : Nat) (M : Mem) : Vec × Mem :=
  match mem with
  | .null => let (p, M) := alloc M; (⟨n, p, n, true⟩, M)
  | p => (⟨n, p, mem_len, false⟩, M)

/-- copy constructor (vec_vector.h:163-175) -/
def Vec.copy (o : Vec) (M : Mem) : Out (Vec × Mem) :=
  if o.new_mem then do
    let (p, M) := alloc M
    readable o.mem o.mem_len M
    .ok (⟨o.n, p, o.mem_len, true⟩, M)
  else .ok (o, M)

/-- move constructor (vec_vector.h:177-183): the new vector and what is left of
the other one -/
def Vec.move (o : Vec) : Vec × Vec := (o, { o with mem := .null })

/-- destructor (vec_vector.h:130-135, 205-209) -/
def Vec.destroy (o : Vec) (M : Mem) : Out Mem := if o.new_mem then free o.mem M else .ok M

/-- copy assignment (vec_vector.h:185-191): the members of `*this` and those of a
copy `tmp` of `other` are exchanged (vec_vector.h:109-119), and `tmp` is destroyed -/
def Vec.assign (this other : Vec) (M : Mem) : Out (Vec × Mem) := do
  let (tmp, M) ← other.copy M
  let M ← this.destroy M
  .ok (tmp, M)

/-! ## Buffers -/

/-- `BufMemAlloc` (vec_buffers.h:55-73) -/
inductive Case where
  | none | slice | zeroExtend | combined | full
  deriving DecidableEq, Repr

/-- members of `vec::Buffers<T>` (vec_buffers.h:128-137) -/
structure Buf where
  mem : List Ptr
  mem_len : Nat
  size : Nat
  n : Nat
  case : Case
  zeros : Ptr
  deriving DecidableEq, Repr

/-- `for (i = 0; i < k; i++) mem.push_back(allocator.allocate(size))` -/
def allocN : Nat → Mem → List Ptr × Mem
  | 0, M => ([], M)
  | k + 1, M =>
      let (ps, M) := allocN k M
      let (p, M) := alloc M
      (ps ++ [p], M)

/-- `Buffers(n, size)` (vec_buffers.h:146-158) -/
def Buf.new (n size : Nat) (M : Mem) : Buf × Mem :=
  let (ps, M) := allocN n M
  (⟨ps, n * size, size, n, .full, .null⟩, M)

/-- `Buffers(n, size, mem)` (vec_buffers.h:167-175) -/
def Buf.ofMem (n size : Nat) (mem : List Ptr) : Buf := ⟨mem, n * size, size, n, .none, .null⟩

/-- the reads of `get(0)`, …, `get(k - 1)` by `std::copy_n` -/
def Buf.readAll (o : Buf) (M : Mem) : List Ptr → Out Unit
  | [] => .ok ()
  | p :: ps => do
      readable p o.size M
      o.readAll M ps

/-- `Buffers(vec, n)`, which is also the copy constructor (vec_buffers.h:183-211).
`mem_len` is computed from the argument `n`, which is 0 for a plain copy.  The
buffers `mem[i]`, `i < get_n()`, of `vec` must be there. -/
def Buf.copy (vec : Buf) (n : Nat) (M : Mem) : Out (Buf × Mem) :=
  let m := if n = 0 then vec.n else n
  let (ps, M) := allocN m M
  let k := min m vec.n
  if vec.mem.length < k then .error .outOfRange
  else do
    vec.readAll M (vec.mem.take k)
    .ok (⟨ps, n * vec.size, vec.size, m, .full, .null⟩, M)

/-- `Buffers(vec, begin, end)` (vec_buffers.h:224-249).  The iterators
`begin() + begin` and `begin() + end` must be inside `vec`'s vector of pointers. -/
def Buf.slice (vec : Buf) (begin' end' : Nat) (M : Mem) : Out (Buf × Mem) :=
  let n := end' - begin'
  if ¬ begin' < end' then .error .assertion
  else if end' ≤ vec.n then
    if vec.mem.length < end' then .error .outOfRange
    else .ok (⟨(vec.mem.take end').drop begin', n * vec.size, vec.size, n, .slice, .null⟩, M)
  else if vec.mem.length < begin' then .error .outOfRange
  else
    let (z, M) := alloc M
    .ok (⟨vec.mem.drop begin' ++ List.replicate (end' - vec.n) z, n * vec.size, vec.size, n, .zeroExtend, z⟩, M)

/-- `Buffers(vec1, vec2)` (vec_buffers.h:257-274) -/
def Buf.cat (vec1 vec2 : Buf) : Out Buf :=
  if vec1.size ≠ vec2.size then .error .assertion
  else
    let n := vec1.n + vec2.n
    .ok ⟨vec1.mem ++ vec2.mem, n * vec1.size, vec1.size, n, .combined, .null⟩

/-- `for (i = 0; i < map_len; ++i) mem[map.get(i)] = vec_mem[i]` -/
def place : List Nat → List Ptr → List Ptr → Out (List Ptr)
  | [], _, mem => .ok mem
  | _ :: _, [], _ => .error .outOfRange
  | j :: map, p :: ps, mem => if j < mem.length then place map ps (mem.set j p) else .error .outOfRange

/-- `Buffers(vec, map, n)` (vec_buffers.h:295-327).  Without zero extension the
vector of pointers is still empty (`reserve` does not change its size) when its
elements are assigned. -/
def Buf.shuffle (vec : Buf) (map : List Nat) (n : Nat) (M : Mem) : Out (Buf × Mem) :=
  if ¬ map.length ≤ n then .error .assertion
  else if vec.n ≥ n then do
    let mem ← place map vec.mem []
    .ok (⟨mem, n * vec.size, vec.size, n, .slice, .null⟩, M)
  else do
    let (z, M) := alloc M
    let mem ← place map vec.mem (List.replicate n z)
    .ok (⟨mem, n * vec.size, vec.size, n, .zeroExtend, z⟩, M)

/-- `deallocate` of `mem[0]`, …, `mem[k - 1]` -/
def freeAll : List Ptr → Mem → Out Mem
  | [], M => .ok M
  | p :: ps, M => do
      let M ← free p M
      freeAll ps M

/-- destructor (vec_buffers.h:329-341) -/
def Buf.destroy (o : Buf) (M : Mem) : Out Mem :=
  if o.case ≠ .none ∧ o.mem.length > 0 then
    if o.case = .full then
      if o.mem.length < o.n then .error .outOfRange else freeAll (o.mem.take o.n) M
    else if o.case = .zeroExtend then free o.zeros M
    else .ok M
  else .ok M

/-- the implicit copy assignment: the class declares none (vec_buffers.h:100-138),
and its members are assigned one by one -/
def Buf.assign (_this other : Buf) : Buf := other

/-- `set(i, buf)` (vec_buffers.h:374-383) -/
def Buf.set (o : Buf) (i : Nat) (buf : Ptr) (M : Mem) : Out (Buf × Mem) :=
  if ¬ i < o.n then .error .assertion
  else match o.mem[i]? with
  | .none => .error .outOfRange
  | some p => do
    let M ← if o.case = .none ∧ p ≠ .null then free p M else .ok M
    .ok ({ o with mem := o.mem.set i buf }, M)

/-- `swap(i, j)` (vec_buffers.h:473-478) -/
def Buf.swap (o : Buf) (i j : Nat) : Out Buf :=
  match o.mem[i]?, o.mem[j]? with
  | some p, some q => .ok { o with mem := (o.mem.set i q).set j p }
  | _, _ => .error .outOfRange

/-! ## Programs -/

inductive Obj where
  | vec (v : Vec)
  | buf (b : Buf)
  deriving DecidableEq, Repr

/-- the memory, and the objects in the order of their construction; a destroyed
object leaves `none` -/
structure St where
  mem : Mem
  objs : List (Option Obj)
  deriving Repr

/-- nothing allocated, no object -/
def St.init : St := ⟨⟨[], 0⟩, []⟩

def St.getVec (s : St) (i : Nat) : Out Vec :=
  match s.objs[i]? with
  | some (some (.vec v)) => .ok v
  | _ => .error .noObject

def St.getBuf (s : St) (i : Nat) : Out Buf :=
  match s.objs[i]? with
  | some (some (.buf b)) => .ok b
  | _ => .error .noObject

/-- a new object -/
def St.push (s : St) (o : Obj) (M : Mem) : St := ⟨M, s.objs ++ [some o]⟩

/-- object `i` becomes `o` -/
def St.put (s : St) (i : Nat) (o : Option Obj) (M : Mem) : St := ⟨M, s.objs.set i o⟩

/-- one step of a program -/
inductive Op where
  /-- `Vector(rn, n, mem, mem_len)` -/
  | vecNew (n : Nat) (mem : Ptr) (mem_len : Nat)
  /-- copy construction from object `i` -/
  | vecCopy (i : Nat)
  /-- move construction from object `i` -/
  | vecMove (i : Nat)
  /-- assignment of object `j` to object `i` -/
  | vecAssign (i j : Nat)
  /-- `swap` of objects `i` and `j` (vec_vector.h:109-119) -/
  | vecSwap (i j : Nat)
  /-- destruction of object `i` -/
  | vecDestroy (i : Nat)
  | bufNew (n size : Nat)
  | bufOfMem (n size : Nat) (mem : List Ptr)
  | bufCopy (i n : Nat)
  | bufSlice (i begin' end' : Nat)
  | bufCat (i j : Nat)
  | bufShuffle (i : Nat) (map : List Nat) (n : Nat)
  | bufSwap (i a b : Nat)
  | bufAssign (i j : Nat)
  | bufSet (i k : Nat) (buf : Ptr)
  | bufDestroy (i : Nat)
  deriving Repr

def step (s : St) : Op → Out St
  | .vecNew n mem mem_len => let (v, M) := Vec.mk' n mem mem_len s.mem; .ok (s.push (.vec v) M)
  | .vecCopy i => do
      let v ← s.getVec i
      let (w, M) ← v.copy s.mem
      .ok (s.push (.vec w) M)
  | .vecMove i => do
      let v ← s.getVec i
      .ok ((s.put i (some (.vec v.move.2)) s.mem).push (.vec v.move.1) s.mem)
  | .vecAssign i j => do
      let v ← s.getVec i
      let w ← s.getVec j
      let (v, M) ← v.assign w s.mem
      .ok (s.put i (some (.vec v)) M)
  | .vecSwap i j => do
      let v ← s.getVec i
      let w ← s.getVec j
      .ok ((s.put i (some (.vec w)) s.mem).put j (some (.vec v)) s.mem)
  | .vecDestroy i => do
      let v ← s.getVec i
      let M ← v.destroy s.mem
      .ok (s.put i none M)
  | .bufNew n size => let (b, M) := Buf.new n size s.mem; .ok (s.push (.buf b) M)
  | .bufOfMem n size mem => .ok (s.push (.buf (Buf.ofMem n size mem)) s.mem)
  | .bufCopy i n => do
      let b ← s.getBuf i
      let (c, M) ← b.copy n s.mem
      .ok (s.push (.buf c) M)
  | .bufSlice i a e => do
      let b ← s.getBuf i
      let (c, M) ← b.slice a e s.mem
      .ok (s.push (.buf c) M)
  | .bufCat i j => do
      let b ← s.getBuf i
      let c ← s.getBuf j
      let d ← b.cat c
      .ok (s.push (.buf d) s.mem)
  | .bufShuffle i map n => do
      let b ← s.getBuf i
      let (c, M) ← b.shuffle map n s.mem
      .ok (s.push (.buf c) M)
  | .bufSwap i a b => do
      let o ← s.getBuf i
      let o ← o.swap a b
      .ok (s.put i (some (.buf o)) s.mem)
  | .bufAssign i j => do
      let b ← s.getBuf i
      let c ← s.getBuf j
      .ok (s.put i (some (.buf (b.assign c))) s.mem)
  | .bufSet i k p => do
      let b ← s.getBuf i
      let (b, M) ← b.set k p s.mem
      .ok (s.put i (some (.buf b)) M)
  | .bufDestroy i => do
      let b ← s.getBuf i
      let M ← b.destroy s.mem
      .ok (s.put i none M)

/-- a whole program -/
def run (s : St) : List Op → Out St
  | [] => .ok s
  | op :: ops => do
      let s ← step s op
      run s ops

end Quad.Life
