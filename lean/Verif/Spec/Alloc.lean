import Verif.Model.Alloc

/-!
# What a client of the allocator may do

A client allocates, writes inside the ranges it obtained and gives each of them
back at most once.  `Held` is what it holds: the pointer it was given, the
number of bytes it asked for, and (for the statements only) the address
`operator new` returned during that allocation.
-/

namespace Quad.Alloc

structure Held where
  ptr : Nat
  len : Nat
  addr : Nat
  deriving DecidableEq, Repr

/-- what a client can do -/
inductive Act where
  /-- `allocate(count)` of elements of `sz` bytes, `operator new` returning `addr` -/
  | alloc (sz count addr : Nat)
  /-- writing the byte `x` at `p` -/
  | write (p x : Nat)
  /-- `deallocate(h.ptr, _)` -/
  | free (h : Held)

/-- a block of `size` bytes at `addr` is one that `operator new` may return:
not null, inside the address space, apart from the blocks in use -/
def Fresh (M : Mem) (addr size : Nat) : Prop :=
  addr ≠ 0 ∧ addr + size ≤ 2 ^ 64 ∧
    ∀ b ∈ M.live, addr ≠ b.1 ∧ (addr + size ≤ b.1 ∨ b.1 + b.2 ≤ addr)

/-- bytes asked from `operator new` in addition to those of the elements -/
def extra (isa : Isa) : Nat := if isa = .none then 0 else isa.alignment

/-- the request fits the address space -/
def Sane (isa : Isa) (sz count : Nat) : Prop := count * sz + isa.alignment < 2 ^ 64

/-- the client's action is legitimate.  The address is one that the system's
`operator new` may return, if the request makes sense at all. -/
def Legal (isa : Isa) (M : Mem) (hs : List Held) : Act → Prop
  | .alloc sz count addr =>
      0 < sz ∧ (Sane isa sz count → Fresh M addr (count * sz + extra isa))
  | .write p _ => ∃ h ∈ hs, h.ptr ≤ p ∧ p < h.ptr + h.len
  | .free h => h ∈ hs

/-- the effect of an action on memory and on what the client holds -/
def act (isa : Isa) (M : Mem) (hs : List Held) : Act → Res (Mem × List Held)
  | .alloc sz count addr => do
      let (p, M) ← allocate isa sz count addr M
      ok (M, match p with
        | some p => ⟨p, count * sz, addr⟩ :: hs
        | none => hs)
  | .write p x => do
      let M ← wrByte p x M
      ok (M, hs)
  | .free h => do
      let M ← deallocate isa h.ptr M
      ok (M, hs.erase h)

/-- memory and holdings after a history of legitimate actions, from a memory
with no block in use -/
inductive Reach (isa : Isa) : Mem → List Held → Prop where
  | start (M : Mem) : M.live = [] → Reach isa M []
  | next {M hs a M' hs'} : Reach isa M hs → Legal isa M hs a →
      act isa M hs a = ok (M', hs') → Reach isa M' hs'

/-- the bytes of `h` lie inside the block `b` -/
def Held.Inside (h : Held) (b : Nat × Nat) : Prop := b.1 ≤ h.ptr ∧ h.ptr + h.len ≤ b.1 + b.2

/-- no byte belongs to both -/
def Held.Apart (h k : Held) : Prop := h.ptr + h.len ≤ k.ptr ∨ k.ptr + k.len ≤ h.ptr

end Quad.Alloc
