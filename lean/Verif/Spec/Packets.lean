import Verif.Spec.Fnt
import Verif.Spec.Nf4

/-!
# What it means that a non-systematic code object codes given data on packets

Stated with the entry points of `FecCode<T>` only: streams and blocks, for every previous content of the outputs, of the
encoding context, of uninitialised memory and of the heap.
-/

namespace Quad.Spec

/-- `k` streams of `T` words of `w` bytes -/
structure StreamData (w k : Nat) (data : Array (List Nat)) (T : Nat) : Prop where
  size : data.size = k
  len : ∀ i, i < k → (gt data i).length = T * w
  bytes : ∀ i, i < k → ∀ x ∈ gt data i, x < 256

/-- The object `E` codes `data` into the `k + m` fragments `frags` with the properties `fprops`, and recovers `data` from any `k` of them. -/
structure PacketCode (E : FecV) (w k m T : Nat) (data frags : Array (List Nat)) (fprops : Array Properties) : Prop where
  /-- encoding appends the fragments to the output streams and gives the properties -/
  encode : ∀ (enc : CtxB) (outs : Array (List Nat)) (props : Array Properties) (junk : Nat → Nat → Nat) (H : Heap),
    outs.size = k + m → props.size = k + m →
    ∃ o enc' H', E.encode_streams_vertical enc data outs props junk H = .ok (o, fprops, enc', H') ∧ o.size = k + m ∧
      ∀ f, f < k + m → gt o f = some (gt outs f ++ gt frags f)
  /-- decoding from at least `k` of the fragments appends the data to the output streams that are not null; from fewer it reports failure and
  writes nothing -/
  decode : ∀ (datas pars outs : Array (Option (List Nat))) (props : Array Properties) (mem : Nat → Nat) (junk : Nat → Nat → Nat) (H : Heap),
    pars.size = k + m → props.size = k + m → outs.size = k →
    (∀ f s, f < k + m → gt pars f = some s → s = gt frags f ∧ gt props f = gt fprops f) →
    ∃ v o H', E.decode_streams_vertical datas pars props outs mem junk H = .ok (v, o, H') ∧
      if avail pars < k then v = false ∧ o = outs
      else v = true ∧ o.size = k ∧ ∀ i, i < k → gt o i = (gt outs i).map (fun s => s ++ gt data i)
  /-- encoding whole blocks writes the fragments at the start of the wanted blocks and nothing else, and gives the same properties -/
  encodeBlocks : ∀ (enc : CtxB) (datas pars : Array (Option (Array Nat))) (props : Array Properties) (wanted : Array Bool) (bytes : Nat)
    (junk : Nat → Nat → Nat) (H : Heap), bytes / w = T → datas.size = k → (∀ i, i < k → StartsWith (gt datas i) (gt data i)) →
    pars.size = k + m → props.size = k + m → k + m ≤ wanted.size →
    (∀ f, f < k + m → gt wanted f = true → ∃ d, gt pars f = some d ∧ T * w ≤ d.size) →
    ∃ o enc' H', E.encode_blocks_vertical enc datas pars props wanted bytes junk H = .ok (o, fprops, enc', H') ∧ o.size = k + m ∧
      ∀ f, f < k + m → gt o f = if gt wanted f then
        (gt pars f).map (fun d => (gt frags f ++ d.toList.drop (T * w)).toArray) else gt pars f
  /-- decoding whole blocks, of which `missing` tells which are missing, writes the data at the start of the wanted data blocks and nothing
  else; with fewer than `k` fragments it reports failure and writes nothing -/
  decodeBlocks : ∀ (datas pars : Array (Option (Array Nat))) (props : Array Properties) (missing wanted : Array Bool) (bytes : Nat)
    (mem : Nat → Nat) (junk : Nat → Nat → Nat) (H : Heap), bytes / w = T → datas.size = k → pars.size = k + m → props.size = k + m →
    missing.size = k + m → k ≤ wanted.size →
    (∀ f, f < k + m → gt missing f = false → StartsWith (gt pars f) (gt frags f) ∧ gt props f = gt fprops f) →
    (∀ i, i < k → gt wanted i = true → ∃ d, gt datas i = some d ∧ T * w ≤ d.size) →
    ∃ v o H', E.decode_blocks_vertical datas pars props missing wanted bytes mem junk H = .ok (v, o, H') ∧
      if missing.toList.count false < k then v = false ∧ o = datas
      else v = true ∧ o.size = k ∧ ∀ i, i < k → gt o i = if gt wanted i then
        (gt datas i).map (fun d => (gt data i ++ d.toList.drop (T * w)).toArray) else gt datas i

/-- the element of GF(65537) that symbol `l` of word `t` of a fragment stands for: 65536 if a property of that word has bit `l` set, else the
16 bits stored -/
noncomputable def restored16 (w : Nat) (s : List Nat) (P : Properties) (t l : Nat) : Nat :=
  open Classical in if ∃ flag, (t, flag) ∈ P.props ∧ flag.testBit l = true then 65536 else lane16 (word w s t) l

end Quad.Spec
