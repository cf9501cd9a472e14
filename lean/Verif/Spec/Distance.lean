import Verif.Model.Fec
import Verif.Spec.FecGf2n

/-!
# Vocabulary for comparing the fragments of different data (C77, C78)
-/

namespace Quad.Spec

/-- the bytes of word `t` of a stream -/
def wordBytes (w t : Nat) (s : List Nat) : List Nat := (s.drop (t * w)).take w

/-- the properties of word `t` -/
def marksAt (t : Nat) (P : Properties) : List (Nat × Nat) := P.props.filter (fun it => decide (it.1 = t))

/-- word `t` of the data streams `i` -/
def SameData (w t i : Nat) (data data' : Array (List Nat)) : Prop := wordBytes w t (gt data i) = wordBytes w t (gt data' i)

/-- word `t` of the coded fragments `f`, with its properties -/
def SameWord (w t f : Nat) (frags frags' : Array (List Nat)) (fprops fprops' : Array Properties) : Prop :=
  wordBytes w t (gt frags f) = wordBytes w t (gt frags' f) ∧ marksAt t (gt fprops f) = marksAt t (gt fprops' f)

instance {w t i : Nat} {a b : Array (List Nat)} : Decidable (SameData w t i a b) := by unfold SameData; infer_instance
instance {w t f : Nat} {a b : Array (List Nat)} {p q : Array Properties} : Decidable (SameWord w t f a b p q) := by unfold SameWord; infer_instance

/-- number of fragments that differ at word `t`, among the `n` coded ones and, in systematic mode, the `k` data fragments -/
def wordDistance (w k n : Nat) (sys : Bool) (t : Nat) (data data' frags frags' : Array (List Nat)) (fprops fprops' : Array Properties) : Nat :=
  (if sys then (List.range k).countP (fun i => decide (¬ SameData w t i data data')) else 0) +
    (List.range n).countP (fun f => decide (¬ SameWord w t f frags frags' fprops fprops'))

/-- two codings of `data`, `T` words in each stream, and `data'`, `T'` words in each: where some data differ, more than `m` fragments do -/
def FarApart (w k n m : Nat) (sys : Bool) (T T' : Nat) (data data' frags frags' : Array (List Nat)) (fprops fprops' : Array Properties) : Prop :=
  ∀ t, t < T → t < T' → (∃ i, i < k ∧ ¬ SameData w t i data data') → m < wordDistance w k n sys t data data' frags frags' fprops fprops'

/-- where the data agree, so do all coded fragments -/
def AgreeWithData (w k n : Nat) (T T' : Nat) (data data' frags frags' : Array (List Nat)) (fprops fprops' : Array Properties) : Prop :=
  ∀ t, t < T → t < T' → (∀ i, i < k → SameData w t i data data') → ∀ f, f < n → SameWord w t f frags frags' fprops fprops'

/-- the relation `R` holds between any two codings by `E`, word by word, of data of whole words, and the part of a word -/
def AnyTwo {Γ : Type} (E : Fec Γ) (w k n : Nat)
    (R : (T T' : Nat) → (data data' frags frags' : Array (List Nat)) → (fprops fprops' : Array Properties) → Prop) : Prop :=
  ∀ {data data' frags frags' : Array (List Nat)} {fprops fprops' : Array Properties} {T T' : Nat} {mem mem' : Nat → Nat},
    Gf2nData w k data T → Gf2nData w k data' T' →
    E.encode_streams_horizontal data (Array.replicate n []) (Array.replicate n .empty) mem = .ok (frags, fprops) →
    E.encode_streams_horizontal data' (Array.replicate n []) (Array.replicate n .empty) mem' = .ok (frags', fprops') →
    R T T' data data' frags frags' fprops fprops'

end Quad.Spec
