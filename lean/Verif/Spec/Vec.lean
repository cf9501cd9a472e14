import Verif.Model.Vec

/-!
# Element-wise effects

The address of a memory cell is a block and a position in it.  `Effect` says
that the cells `c 0`, …, `c (n - 1)` hold `f 0`, …, `f (n - 1)` and that no other
cell changed.
-/

namespace Quad.Vec

/-- contents of a memory cell -/
def cell (H : Heap) (a : Nat × Nat) : Nat := gt (gt H a.1) a.2

/-- the same blocks, of the same sizes -/
def Shape (H H' : Heap) : Prop := H'.size = H.size ∧ ∀ b, (gt H' b).size = (gt H b).size

/-- the address is in memory -/
def Valid (H : Heap) (a : Nat × Nat) : Prop := a.1 < H.size ∧ a.2 < (gt H a.1).size

/-- cell `c i` becomes `f i` for every `i < n`, and nothing else changes -/
structure Effect (H H' : Heap) (n : Nat) (c : Nat → Nat × Nat) (f : Nat → Nat) : Prop where
  shape : Shape H H'
  elems : ∀ i, i < n → cell H' (c i) = f i
  frame : ∀ a, (∀ i, i < n → c i ≠ a) → cell H' a = cell H a

/-- the cells from a pointer on -/
def Ptr.at' (p : Ptr) (i : Nat) : Nat × Nat := (p.blk, p.off + i)

/-- the cells from the beginning of a vector on -/
def Obj.at' (o : Obj) (i : Nat) : Nat × Nat := o.base.mem.at' i

/-- `o` is a `Vector` or a `Slice` of one, whose elements are cells
`o.at' 0`, …, `o.at' (n - 1)` -/
structure Plain (H : Heap) (o : Obj) : Prop where
  cls : (∃ v, o = .vector v) ∨ ∃ v l k, o = .slice v v.mem l k
  blk : o.base.mem.blk < H.size
  len : o.base.n ≤ o.base.mem_len
  room : o.base.mem.off + o.base.mem_len ≤ (gt H o.base.mem.blk).size

/-- the elements of `v` are not overwritten before they are read when the `len`
elements from `d` on are written in increasing order -/
def Clear (d s : Ptr) (len : Nat) : Prop :=
  d.blk ≠ s.blk ∨ d.off ≤ s.off ∨ s.off + len ≤ d.off

/-- `beta^i` as the code multiplies it out, for `i ≥ 1` -/
def powBy (F : GF) (beta : Nat) : Nat → Nat
  | 0 => beta
  | i + 1 => F.mul (powBy F beta i) beta

end Quad.Vec
