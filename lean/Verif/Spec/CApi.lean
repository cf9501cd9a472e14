import Verif.Spec.Fnt
import Verif.Model.CApi

/-!
# Blocks of the C interface

Block `i < k` is data block `i`, block `k + i` is parity block `i`.  A block is a metadata area followed by the payload.
-/

namespace Quad.Spec
open Quad

/-- a block of `quadiron_fnt32_get_metadata_size` bytes of metadata and `bs` bytes of payload -/
def Block (bs : Nat) (b : Array Nat) : Prop := b.size = CApi.metadata_size bs + bs ∧ ∀ x ∈ b.toList, x < 256

/-- what the words of the payload hold; a rest that does not fill a word is not included -/
def payload (w bs : Nat) (b : Array Nat) : List Nat := (b.toList.drop (CApi.metadata_size bs)).take (bs / w * w)

/-- the blocks of the caller -/
structure FntCode.Mem (c : FntCode) (bs : Nat) (U : Array (Array Nat)) : Prop where
  size : U.size = c.k + c.m
  block : ∀ i, i < c.k + c.m → Block bs (gt U i)

/-- block of output fragment 0 -/
def FntCode.first (c : FntCode) : Nat := if c.sys then c.k else 0

/-- the streams of the data blocks -/
def FntCode.dataOf (c : FntCode) (bs : Nat) (U : Array (Array Nat)) : Array (List Nat) :=
  Array.ofFn (fun i : Fin c.k => payload c.w bs (gt U i))

/-- `U'` is what `quadiron_fnt32_encode` of a new object, or of one in use, left of the blocks `U`; it returned 0 -/
def FntCode.EncodedC (c : FntCode) (bs : Nat) (U : Array (Array Nat)) (wanted : Array Bool) (U' : Array (Array Nat)) : Prop :=
  ∃ R C H junk C' H', c.Reachable CApi.PKT_SIZE R C H ∧ CApi.encode R C U wanted bs junk H = .ok (0, U', C', H')

/-- the blocks `V` and the list `missing` after some blocks were lost: the blocks that are not missing are those of `U'`, and
those of the output fragments among them were wanted -/
structure FntCode.Lost (c : FntCode) (U' : Array (Array Nat)) (wanted : Array Bool) (V : Array (Array Nat)) (missing : Array Bool) : Prop where
  size : V.size = c.k + c.m
  msize : missing.size = c.k + c.m
  same : ∀ i, i < c.k + c.m → gt missing i = false → gt V i = gt U' i
  wanted : ∀ f, f < c.nOut → gt missing (c.first + f) = false → gt wanted f = true

/-- the 32-bit number in bytes `4 * j` to `4 * j + 3` of a block, most significant byte first -/
def be32 (b : Array Nat) (j : Nat) : Nat := gt b (4 * j) * 2 ^ 24 + gt b (4 * j + 1) * 2 ^ 16 + gt b (4 * j + 2) * 2 ^ 8 + gt b (4 * j + 3)

/-- what the metadata of a block may be: a list of locations, no such list, or a list whose length plus 2 does not fit 32 bits -/
inductive MetaKind
  | marks (l : List Nat)
  | invalid
  | wraps
  deriving DecidableEq

/-- The metadata of a block: the word "FNT1", the number of locations, and the locations.  The list must fit the area. -/
def metaOf (bs : Nat) (b : Array Nat) : MetaKind :=
  if be32 b 0 ≠ 0x464E5431 then .invalid
  else if 2 ^ 32 ≤ 2 + be32 b 1 then .wraps
  else if CApi.metadata_size bs < 4 * (2 + be32 b 1) then .invalid
  else .marks ((List.range (be32 b 1)).map (fun i => be32 b (2 + i)))

/-- the locations in the metadata of a block -/
def MetaKind.list : MetaKind → List Nat
  | .marks l => l
  | _ => []

/-- Blocks of any contents to decode from: the data blocks, and the other blocks that are not missing, have the right size.  No
block is needed to be the result of an encoding. -/
structure FntCode.AnyMem (c : FntCode) (bs : Nat) (V : Array (Array Nat)) (missing : Array Bool) : Prop where
  size : V.size = c.k + c.m
  msize : missing.size = c.k + c.m
  block : ∀ i, i < c.k + c.m → (i < c.k ∨ gt missing i = false) → Block bs (gt V i)

/-- Blocks of any contents to reconstruct block `d` from: the blocks that are not missing, and block `d`, have the right size. -/
structure FntCode.AnyRec (c : FntCode) (bs : Nat) (V : Array (Array Nat)) (missing : Array Bool) (d : Nat) : Prop where
  size : V.size = c.k + c.m
  msize : missing.size = c.k + c.m
  block : ∀ i, i < c.k + c.m → (i = d ∨ gt missing i = false) → Block bs (gt V i)

/-- the words of the fragments that are not missing: all blocks, or the coded ones -/
def FntCode.memFragments (c : FntCode) (bs : Nat) (V : Array (Array Nat)) (missing : Array Bool) : Array (Option (List Nat)) :=
  Array.ofFn (fun j : Fin (c.k + c.m) => if gt missing j then none else some (payload c.w bs (gt V j)))

/-- the properties in the metadata of the coded fragments -/
def FntCode.memProps (c : FntCode) (bs : Nat) (V : Array (Array Nat)) : Array Properties :=
  Array.ofFn (fun f : Fin c.nOut => ⟨(metaOf bs (gt V (c.first + f))).list.map (fun x => (x, OOR_MARK))⟩)

end Quad.Spec
