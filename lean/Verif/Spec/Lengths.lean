import Verif.Spec.Fnt
import Verif.Spec.AnyLanes

/-!
# Streams of different lengths

The packet functions ask for streams of equal size (fec_base.h:406, 555) and do not check it.
This file says which length decides when the sizes differ.
-/

namespace Quad.Spec

/-- `s` cut or completed with zeros to `n` bytes -/
def fit (n : Nat) (s : List Nat) : List Nat := s.take n ++ List.replicate (n - s.length) 0

/-- `L` bytes completed to whole packets of `buf` bytes -/
def wholePkts (buf L : Nat) : Nat := (L + buf - 1) / buf * buf

/-- of `count` streams of the lengths `len 0`, `len 1`, ..., the stream `j` is the last of those that have the fewest full packets of `buf` bytes -/
structure LastShort (buf count : Nat) (len : Nat → Nat) (j : Nat) : Prop where
  lt : j < count
  fewest : ∀ i, i < count → len j / buf ≤ len i / buf
  last : ∀ i, j < i → i < count → len j / buf < len i / buf

/-- streams of any lengths to decode from, with any contents, and any properties -/
structure FntCode.AnyLengths (c : FntCode) (datas pars : Array (Option (List Nat))) (props : Array Properties) : Prop where
  dsize : c.sys = true → datas.size = c.k
  psize : pars.size = c.nOut
  prsize : props.size = c.nOut
  dat : c.sys = true → ∀ i s, i < c.k → gt datas i = some s → ∀ x ∈ s, x < 256
  par : ∀ f s, f < c.nOut → gt pars f = some s → ∀ x ∈ s, x < 256

/-- length of the `i`-th of the first `k` available fragments -/
def FntCode.pickedLen (c : FntCode) (datas pars : Array (Option (List Nat))) (i : Nat) : Nat :=
  ((gt (c.fragments datas pars) (gt (picked c.k (c.fragments datas pars)).toArray i)).getD []).length

/-- streams to decode from: each present data stream (systematic mode) and each present output stream is as encoded, but its end may be missing -/
structure FntCode.Truncated (c : FntCode) (data frags : Array (List Nat)) (fprops : Array Properties)
    (datas pars : Array (Option (List Nat))) (props : Array Properties) : Prop where
  dsize : c.sys = true → datas.size = c.k
  psize : pars.size = c.nOut
  prsize : props.size = c.nOut
  dat : c.sys = true → ∀ i s, i < c.k → gt datas i = some s → s <+: gt data i
  par : ∀ f s, f < c.nOut → gt pars f = some s → s <+: gt frags f ∧ gt props f = gt fprops f

/-- length of the `i`-th of the first `k` available fragments -/
def lenPicked (k : Nat) (fr : Array (Option (List Nat))) (i : Nat) : Nat := ((gt fr (gt (picked k fr).toArray i)).getD []).length

/-- Encoding of data streams of any lengths, packed Fermat code: with `L` the length of the last of the streams that have the fewest full packets, the first `L` bytes
of the fragments, and all properties, that the word-by-word object `E'` makes of the data cut or completed with zeros to whole packets. -/
def EncodesLengths {Γ : Type} (E : FecV) (E' : Fec Γ) (w k m pkt : Nat) : Prop :=
  ∀ {data : Array (List Nat)} {j : Nat} (mem : Nat → Nat), data.size = k → (∀ i, i < k → ∀ x ∈ gt data i, x < 256) →
    LastShort (pkt * w) k (fun i => (gt data i).length) j → ∃ frags fprops,
    E'.encode_streams_horizontal (data.map (fit (wholePkts (pkt * w) (gt data j).length))) (Array.replicate (k + m) []) (Array.replicate (k + m) .empty) mem
      = .ok (frags, fprops) ∧
    ∀ (enc : CtxB) (outs : Array (List Nat)) (props : Array Properties) (junk : Nat → Nat → Nat) (H : Heap), outs.size = k + m → props.size = k + m →
      ∃ o enc' H', E.encode_streams_vertical enc data outs props junk H = .ok (o, fprops, enc', H') ∧ o.size = k + m ∧
        ∀ f, f < k + m → gt o f = some (gt outs f ++ (gt frags f).take (gt data j).length)

/-- Decoding of fragments of any lengths, with any contents and properties, packed Fermat code: with `L` the length of the last, of the first `k` available fragments,
of those that have the fewest full packets, it appends the first `L` bytes of the words interpolated from the symbols of the fragments, where missing bytes count as zeros. -/
def DecodesLengths (E : FecV) (g : ZMod 65537) (w k m pkt : Nat) : Prop :=
  ∀ {datas pars outs : Array (Option (List Nat))} {props : Array Properties} {j : Nat} (mem : Nat → Nat) (junk : Nat → Nat → Nat) (H : Heap),
    pars.size = k + m → props.size = k + m → outs.size = k → (∀ f s, f < k + m → gt pars f = some s → ∀ x ∈ s, x < 256) → k ≤ avail pars →
    LastShort (pkt * w) k (lenPicked k pars) j →
    ∃ o H', ∃ r : Nat → List Nat, E.decode_streams_vertical datas pars props outs mem junk H = .ok (true, o, H') ∧ o.size = k ∧
      LanesDecoded g w k (wholePkts (pkt * w) (lenPicked k pars j) / w) pars props r ∧
      ∀ i, i < k → gt o i = (gt outs i).map (fun s => s ++ (r i).take (lenPicked k pars j)) ∧
        (r i).length = wholePkts (pkt * w) (lenPicked k pars j) ∧ ∀ x ∈ r i, x < 256

end Quad.Spec
