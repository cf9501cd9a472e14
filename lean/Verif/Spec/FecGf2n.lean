import Verif.Model.FecGf2n
import Verif.Spec.Gf2n

/-!
# Vocabulary for the matrix codes over GF(2^n) (C27, C28)
-/

namespace Quad.Spec

/-- parameters: a word of 1, 2, 4, 8 or 16 bytes that the word type of `b` bits has room for, at least one data
fragment, at most as many fragments as the field has elements -/
structure Gf2nParams (b w k m : Nat) : Prop where
  hw : w ∈ [1, 2, 4, 8, 16]
  field : BinSupported b (8 * w)
  hk : 0 < k
  len : k + m ≤ 2 ^ (8 * w)

/-- the data streams: bytes, and `T` complete words in each -/
structure Gf2nData (w k : Nat) (data : Array (List Nat)) (T : Nat) : Prop where
  size : data.size = k
  bytes : ∀ i, i < k → ∀ x ∈ gt data i, x < 256
  full : ∀ i, i < k → T * w ≤ (gt data i).length
  last : ∃ i, i < k ∧ (gt data i).length < (T + 1) * w

/-- what the decoder is given: each stream is missing (`none`) or what was coded, with its properties -/
structure Gf2nSurviving (k m : Nat) (data frags : Array (List Nat)) (fprops : Array Properties)
    (datas pars : Array (Option (List Nat))) (props : Array Properties) : Prop where
  dsize : datas.size = k
  psize : pars.size = m
  qsize : props.size = m
  dsame : ∀ i s, i < k → gt datas i = some s → s = gt data i
  psame : ∀ f s, f < m → gt pars f = some s → s = gt frags f ∧ gt props f = gt fprops f

/-- number of streams that are not missing -/
def nAvail (a : Array (Option (List Nat))) : Nat := a.toList.countP Option.isSome

/-- the code object `E` codes `data` without error, and decoding any surviving fragments among which there are as many
as data fragments, and that satisfy `sel`, writes the complete words of every data stream (nothing is written
if no data stream is missing) -/
def Gf2nRecovers (E : Fec Mat) (w k m : Nat) (mem : Nat → Nat) (data : Array (List Nat)) (T : Nat)
    (sel : Array (Option (List Nat)) → Array (Option (List Nat)) → Prop) : Prop :=
  ∃ frags fprops,
    E.encode_streams_horizontal data (Array.replicate m []) (Array.replicate m .empty) mem = .ok (frags, fprops) ∧
    frags.size = m ∧ (∀ f, f < m → (gt frags f).length = T * w) ∧
    ∀ (datas pars outs : Array (Option (List Nat))) (props : Array Properties) (mem' : Nat → Nat),
      Gf2nSurviving k m data frags fprops datas pars props → outs.size = k → k ≤ nAvail datas + nAvail pars →
      sel datas pars →
      ∃ res, E.decode_streams_horizontal datas pars props outs mem' = .ok (true, res) ∧ res.size = k ∧
        ∀ i, i < k → gt res i =
          if nAvail datas = k then gt outs i else (gt outs i).map (fun s => s ++ (gt data i).take (T * w))

end Quad.Spec
