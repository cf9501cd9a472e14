import Verif.Spec.AnyMarks
import Verif.Spec.Nf4
import Verif.Spec.Packets

/-!
# Vocabulary for fragments and properties with any contents, packed Fermat code (C61, C62)

A word of `w` bytes holds `w / 2` symbols of 16 bits; bit `l` of the mark of a word says that its symbol `l` is 65536.
-/

namespace Quad.Spec
open Polynomial

/-- The mark that the decoder sees at location `t` of the properties `P`, 0 for none: the smallest mark listed at `t`, if no location before `t` is listed
twice.  (The decoder goes through the sorted list, by one entry at most for each word; a location listed twice stops it.) -/
def flagAt (P : Properties) (t : Nat) : Nat :=
  if ∀ s, s < t → (P.props.map Prod.fst).count s ≤ 1 then (((P.props.filter (fun q => q.1 = t)).map Prod.snd).min?).getD 0 else 0

/-- Symbol `l` of the word at location `t` of a fragment with the bytes `s` and the properties `P`. -/
def laneAt (w : Nat) (s : List Nat) (P : Properties) (t l : Nat) : Nat :=
  if (flagAt P t).testBit l then 65536 else lane16 (word w s t) l

/-- Encoding: at every location and for every `l`, the symbols `l` of the `n` fragments are the values, at the powers of `g`, of the polynomial whose
coefficients are the symbols `l` of the data words. -/
def EncodesLanes {Γ : Type} (E : Fec Γ) (g : ZMod 65537) (w k n : Nat) : Prop :=
  ∀ (data : Array (List Nat)) (T : Nat) (mem : Nat → Nat), Gf2nData w k data T → ∃ frags fprops,
    E.encode_streams_horizontal data (Array.replicate n []) (Array.replicate n .empty) mem = .ok (frags, fprops) ∧
    frags.size = n ∧ fprops.size = n ∧ (∀ f, f < n → (gt frags f).length = T * w ∧ ∀ x ∈ gt frags f, x < 256) ∧
    ∀ t l, t < T → l < w / 2 → ∃ P : (ZMod 65537)[X], P.degree < k ∧ (∀ i, i < k → P.coeff i = lane16 (word w (gt data i) t) l) ∧
      ∀ f, f < n → P.eval (g ^ f) = laneAt w (gt frags f) (gt fprops f) t l

/-- The words `r` are decoded from the fragments `fr` with the properties `props`: symbol `l` of word `t` of `r i` is made of the low 16 bits of coefficient `i` of
the only polynomial of degree below `k` that has, at the powers of `g`, the symbols `l` at `t` of the first `k` available fragments. -/
def LanesDecoded (g : ZMod 65537) (w k T : Nat) (fr : Array (Option (List Nat))) (props : Array Properties) (r : Nat → List Nat) : Prop :=
  ∀ t l, t < T → l < w / 2 → ∃ P : (ZMod 65537)[X], P.degree < k ∧
    (∀ j ∈ picked k fr, P.eval (g ^ j) = laneAt w ((gt fr j).getD []) (gt props j) t l) ∧
    (∀ Q : (ZMod 65537)[X], Q.degree < k →
      (∀ j ∈ picked k fr, Q.eval (g ^ j) = laneAt w ((gt fr j).getD []) (gt props j) t l) → Q = P) ∧
    ∀ i, i < k → lane16 (word w (r i) t) l = (P.coeff i).val % 65536

/-- Decoding succeeds, and appends `T` words to each output stream, decoded from the fragments `pars` with the properties `props`. -/
def DecodesLanes {Γ : Type} (E : Fec Γ) (g : ZMod 65537) (w k T : Nat) (datas pars outs : Array (Option (List Nat)))
    (props : Array Properties) (mem : Nat → Nat) : Prop :=
  ∃ (res : Array (Option (List Nat))) (o : Array (List Nat)),
    E.decode_streams_horizontal datas pars props outs mem = .ok (true, res) ∧ res.size = k ∧
    o.size = k ∧ (∀ i, i < k → (gt o i).length = T * w ∧ ∀ x ∈ gt o i, x < 256) ∧
    (∀ i, i < k → gt res i = (gt outs i).map (fun s => s ++ gt o i)) ∧
    LanesDecoded g w k T pars props (gt o)

/-- the first `T` words of the blocks that are not missing -/
def blockFrags (w T : Nat) (pars : Array (Option (Array Nat))) (missing : Array Bool) : Array (Option (List Nat)) :=
  Array.ofFn (n := missing.size) (fun j => if gt missing j then none else (gt pars j.1).map (fun d => d.toList.take (T * w)))

/-- Decoding of packets, on streams and on blocks, from fragments of any contents with any properties: it fails, and writes nothing, with fewer than `k` fragments; else
it writes `T` decoded words to every wanted stream or block, and nothing else. -/
structure DecodesPackets (E : FecV) (g : ZMod 65537) (w k m : Nat) : Prop where
  streams : ∀ (T : Nat) (datas pars outs : Array (Option (List Nat))) (props : Array Properties) (mem : Nat → Nat) (junk : Nat → Nat → Nat) (H : Heap),
    pars.size = k + m → props.size = k + m → outs.size = k →
    (∀ f s, f < k + m → gt pars f = some s → s.length = T * w ∧ ∀ x ∈ s, x < 256) →
    ∃ v o H', E.decode_streams_vertical datas pars props outs mem junk H = .ok (v, o, H') ∧
      if avail pars < k then v = false ∧ o = outs
      else v = true ∧ o.size = k ∧ ∃ r : Nat → List Nat, LanesDecoded g w k T pars props r ∧
        ∀ i, i < k → (r i).length = T * w ∧ (∀ x ∈ r i, x < 256) ∧ gt o i = (gt outs i).map (fun s => s ++ r i)
  blocks : ∀ (T : Nat) (datas pars : Array (Option (Array Nat))) (props : Array Properties) (missing wanted : Array Bool) (bytes : Nat)
    (mem : Nat → Nat) (junk : Nat → Nat → Nat) (H : Heap), bytes / w = T → datas.size = k → pars.size = k + m → props.size = k + m →
    missing.size = k + m → k ≤ wanted.size →
    (∀ f, f < k + m → gt missing f = false → ∃ d, gt pars f = some d ∧ T * w ≤ d.size ∧ ∀ x ∈ d.toList, x < 256) →
    (∀ i, i < k → gt wanted i = true → ∃ d, gt datas i = some d ∧ T * w ≤ d.size) →
    ∃ v o H', E.decode_blocks_vertical datas pars props missing wanted bytes mem junk H = .ok (v, o, H') ∧
      if missing.toList.count false < k then v = false ∧ o = datas
      else v = true ∧ o.size = k ∧ ∃ r : Nat → List Nat, LanesDecoded g w k T (blockFrags w T pars missing) props r ∧
        ∀ i, i < k → (r i).length = T * w ∧ (∀ x ∈ r i, x < 256) ∧ gt o i = if gt wanted i then
          (gt datas i).map (fun d => (r i ++ d.toList.drop (T * w)).toArray) else gt datas i

end Quad.Spec
