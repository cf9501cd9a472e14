import Verif.Model.Fec
import Verif.Spec.FecGf2n

/-!
# Vocabulary for sums of data (C79)
-/

namespace Quad.Spec

/-- byte by byte exclusive or of two streams of the same length -/
def xorBytes (s s' : List Nat) : List Nat := List.zipWith (fun x y => x ^^^ y) s s'

/-- stream by stream -/
def xorStreams (n : Nat) (a a' : Array (List Nat)) : Array (List Nat) := Array.ofFn (fun i : Fin n => xorBytes (gt a i) (gt a' i))

/-- the fragments of the exclusive or of two data of the same lengths are the exclusive or of their fragments, and there are no properties -/
def CodesSums {Γ : Type} (E : Fec Γ) (w k n : Nat) : Prop :=
  ∀ {data data' frags frags' : Array (List Nat)} {fprops fprops' : Array Properties} {T : Nat} {mem mem' : Nat → Nat},
    Gf2nData w k data T → Gf2nData w k data' T → (∀ i, i < k → (gt data i).length = (gt data' i).length) →
    E.encode_streams_horizontal data (Array.replicate n []) (Array.replicate n .empty) mem = .ok (frags, fprops) →
    E.encode_streams_horizontal data' (Array.replicate n []) (Array.replicate n .empty) mem' = .ok (frags', fprops') →
    ∀ mem'', E.encode_streams_horizontal (xorStreams k data data') (Array.replicate n []) (Array.replicate n .empty) mem'' =
      .ok (xorStreams n frags frags', Array.replicate n .empty)

end Quad.Spec
