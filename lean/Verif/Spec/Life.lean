import Verif.Model.Life

/-! # Who owns a block of memory -/

namespace Quad.Life

/-- the object is responsible for freeing block `b` -/
def Owns : Obj → Nat → Prop
  | .vec v, b => v.new_mem = true ∧ v.mem = .heap b
  | .buf o, b => (o.case = .full ∧ .heap b ∈ o.mem) ∨ (o.case = .zeroExtend ∧ o.zeros = .heap b)

/-- object number `i` exists and is `o` -/
def St.has (s : St) (i : Nat) (o : Obj) : Prop := s.objs[i]? = some (some o)

/-- the program does not assign one `Buffers` to another, nor call
`Buffers::set` -/
def Plain (ops : List Op) : Prop :=
  ∀ op ∈ ops, (∀ i j, op ≠ .bufAssign i j) ∧ ∀ i k p, op ≠ .bufSet i k p

end Quad.Life
