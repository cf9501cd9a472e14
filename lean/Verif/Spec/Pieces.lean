import Verif.Spec.FecGf2n
import Verif.Spec.Packets

/-!
# Vocabulary for coding in pieces (C80)
-/

namespace Quad.Spec

/-- stream by stream, what comes after what -/
def joinStreams (n : Nat) (a a' : Array (List Nat)) : Array (List Nat) := Array.ofFn (fun i : Fin n => gt a i ++ gt a' i)

/-- the properties of two pieces, the first of `T` words -/
def joinProps (n T : Nat) (p p' : Array Properties) : Array Properties :=
  Array.ofFn (fun f : Fin n => ⟨(gt p f).props ++ (gt p' f).props.map (fun it => (T + it.1, it.2))⟩)

/-- the fragments of `data` followed by `data'` are those of `data` followed by those of `data'` -/
def CodesPieces {Γ : Type} (E : Fec Γ) (w k n : Nat) : Prop :=
  ∀ {data data' frags frags' : Array (List Nat)} {fprops fprops' : Array Properties} {T T' : Nat} {mem mem' : Nat → Nat},
    StreamData w k data T → Gf2nData w k data' T' →
    E.encode_streams_horizontal data (Array.replicate n []) (Array.replicate n .empty) mem = .ok (frags, fprops) →
    E.encode_streams_horizontal data' (Array.replicate n []) (Array.replicate n .empty) mem' = .ok (frags', fprops') →
    ∀ mem'', E.encode_streams_horizontal (joinStreams k data data') (Array.replicate n []) (Array.replicate n .empty) mem'' =
      .ok (joinStreams n frags frags', joinProps n T fprops fprops')

end Quad.Spec
