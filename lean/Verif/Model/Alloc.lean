import Verif.Base

/-!
# Model of src/simd/allocator.h

Memory is a map from addresses to bytes together with the blocks obtained from
`operator new` and not yet given back to `operator delete`, as pairs of an
address and a size.  The address `operator new` chooses is an argument.
`std::size_t` and `std::uintptr_t` have 64 bits.
-/

namespace Quad.Alloc

/-- `simd::InstructionSet` (simd/definitions.h:64-68) -/
inductive Isa where
  | none | sse | avx
  deriving DecidableEq, Repr

/-- `ALIGNMENT = alignof(RegisterType)` (simd/definitions.h:75-114): `__m256`,
`__m128`, and `uint64_t` (`__LP64__`) -/
def Isa.alignment : Isa → Nat
  | .none => 8
  | .sse => 16
  | .avx => 32

/-- memory: the blocks obtained from `operator new`, and the bytes -/
structure Mem where
  live : List (Nat × Nat)
  byte : Nat → Nat

/-- is the address `a` inside a block? -/
def Mem.inside (M : Mem) (a : Nat) : Bool :=
  M.live.any (fun b => decide (b.1 ≤ a ∧ a < b.1 + b.2))

/-- `::operator new(size)`, which returns `addr` (C++ runtime) -/
def opNew (addr size : Nat) (M : Mem) : Mem := { M with live := (addr, size) :: M.live }

/-- `::operator delete(p)` (C++ runtime): undefined unless `p` is null or the
address of a block -/
def opDelete (p : Nat) (M : Mem) : Res Mem :=
  if p = 0 then ok M
  else if M.live.any (fun b => decide (b.1 = p)) then
    ok { M with live := M.live.eraseP (fun b => decide (b.1 = p)) }
  else ub

/-- `*p` for an `unsigned char* p` -/
def rdByte (p : Nat) (M : Mem) : Res Nat := if M.inside p then ok (M.byte p) else ub

/-- `*p = x` for an `unsigned char* p` -/
def wrByte (p x : Nat) (M : Mem) : Res Mem :=
  if M.inside p then ok { M with byte := fun a => if a = p then x % 256 else M.byte a } else ub

/-- `addr_is_aligned` (simd/allocator.h:52-61) -/
def addr_is_aligned (isa : Isa) (addr : Nat) : Bool :=
  if isa = .none then true else (addr &&& (isa.alignment - 1)) == 0

/-- `AlignedAllocator<T>::max_size` (simd/allocator.h:134-138); `sz` is `sizeof(T)` -/
def max_size (isa : Isa) (sz : Nat) : Nat := (2 ^ 64 - 1 - isa.alignment) / sz

/-- `AlignedAllocator<T>::allocate(count)` (simd/allocator.h:81-114); `addr` is
the address `operator new` returns.  `none`: `std::bad_alloc` is thrown. -/
def allocate (isa : Isa) (sz count addr : Nat) (M : Mem) : Res (Option Nat × Mem) :=
  if max_size isa sz < count then ok (Option.none, M)
  else if isa = .none then ok (some addr, opNew addr (wrap 64 (count * sz)) M)
  else do
    let size := wrap 64 (wrap 64 (count * sz) + isa.alignment)
    let M := opNew addr size M
    let offset := isa.alignment - addr % isa.alignment
    cassert (decide (1 ≤ offset))
    let aligned_ptr := addr + offset
    cassert (decide (offset ≤ 255))
    let M ← wrByte (aligned_ptr - 1) offset M
    ok (some aligned_ptr, M)

/-- `AlignedAllocator<T>::deallocate(ptr, count)` (simd/allocator.h:116-132) -/
def deallocate (isa : Isa) (ptr : Nat) (M : Mem) : Res Mem :=
  if isa = .none then opDelete ptr M
  else if ptr = 0 then ok M
  else do
    let offset ← rdByte (ptr - 1) M
    opDelete (ptr - offset) M

end Quad.Alloc
