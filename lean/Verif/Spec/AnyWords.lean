import Verif.Spec.FecFft
import Verif.Spec.Fnt

/-!
# Vocabulary for fragments with any contents decoded word by word (C59)
-/

namespace Quad.Spec

/-- the fragments by number: in systematic mode the data fragments come first -/
def fragsOf {α : Type} (sys : Bool) (datas pars : Array α) : Array α := if sys then datas ++ pars else pars

/-- Streams to decode from, `k` data streams in systematic mode and `n` output streams, each missing (`none`) or with any bytes.
`T` is the number of complete words of the shortest of the first `k` available fragments. -/
structure AnyWords (sys : Bool) (w k n T : Nat) (datas pars : Array (Option (List Nat))) : Prop where
  dsize : sys = true → datas.size = k
  psize : pars.size = n
  enough : k ≤ nAvail (fragsOf sys datas pars)
  bytes : ∀ s ∈ (fragsOf sys datas pars).toList, ∀ x ∈ s.getD [], x < 256
  full : ∀ j ∈ picked k (fragsOf sys datas pars), T * w ≤ ((gt (fragsOf sys datas pars) j).getD []).length
  last : ∃ j ∈ picked k (fragsOf sys datas pars), ((gt (fragsOf sys datas pars) j).getD []).length < (T + 1) * w

/-- The fragments `fr` and the fragments that the code object `E` makes of `data` have the same word at location `t`
in each of the first `k` available fragments. -/
def AgreeAt {Γ : Type} (E : Fec Γ) (sys : Bool) (w k n : Nat) (fr : Array (Option (List Nat))) (data : Array (List Nat)) (t : Nat) : Prop :=
  ∀ mem, ∃ frags fprops,
    E.encode_streams_horizontal data (Array.replicate n []) (Array.replicate n .empty) mem = .ok (frags, fprops) ∧
    ∀ j ∈ picked k fr, word w ((gt fr j).getD []) t = word w (gt (fragsOf sys data frags) j) t

/-- Decoding succeeds, and appends to the output streams the data `out`, of `T` words each, whose encoding has the words of the first `k` available
fragments.  Any data whose encoding has these words at a location has the word of `out` there. -/
def DecodesTo {Γ : Type} (E : Fec Γ) (sys : Bool) (w k n T : Nat) (datas pars outs : Array (Option (List Nat))) (props : Array Properties)
    (mem : Nat → Nat) : Prop :=
  ∃ (res : Array (Option (List Nat))) (out : Array (List Nat)),
    E.decode_streams_horizontal datas pars props outs mem = .ok (true, res) ∧ res.size = k ∧
    out.size = k ∧ (∀ i, i < k → (gt out i).length = T * w ∧ ∀ x ∈ gt out i, x < 256) ∧
    (∀ i, i < k → gt res i = (gt outs i).map (fun s => s ++ gt out i)) ∧
    (∀ t, t < T → AgreeAt E sys w k n (fragsOf sys datas pars) out t) ∧
    ∀ (data : Array (List Nat)) (T' t : Nat), Gf2nData w k data T' → t < T' → t < T → AgreeAt E sys w k n (fragsOf sys datas pars) data t →
      ∀ i, i < k → word w (gt out i) t = word w (gt data i) t

end Quad.Spec
