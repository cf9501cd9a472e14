import Verif.Spec.FecFft
import Verif.Spec.Fnt
import Verif.Spec.Packets

/-!
# Vocabulary for fragments exchanged between processes and builds (C55)

Each definition says that one code object writes the given fragments and properties, and decodes these fragments, whoever wrote them.
-/

namespace Quad.Spec

/-- the systematic object `E` codes `data` into the parity streams `frags` with the properties `fprops`, and decodes any of these fragments
among which there are as many as data fragments, and that satisfy `sel` -/
structure Gf2nCodes (E : Fec Mat) (w k m : Nat) (data : Array (List Nat)) (T : Nat)
    (sel : Array (Option (List Nat)) → Array (Option (List Nat)) → Prop) (frags : Array (List Nat)) (fprops : Array Properties) : Prop where
  encode : ∀ mem : Nat → Nat,
    E.encode_streams_horizontal data (Array.replicate m []) (Array.replicate m .empty) mem = .ok (frags, fprops)
  decode : ∀ (datas pars outs : Array (Option (List Nat))) (props : Array Properties) (mem : Nat → Nat),
    Gf2nSurviving k m data frags fprops datas pars props → outs.size = k → k ≤ nAvail datas + nAvail pars → sel datas pars →
    ∃ res, E.decode_streams_horizontal datas pars props outs mem = .ok (true, res) ∧ res.size = k ∧
      ∀ i, i < k → gt res i =
        if nAvail datas = k then gt outs i else (gt outs i).map (fun s => s ++ (gt data i).take (T * w))

/-- the non-systematic object `E` codes `data` into the streams `frags` with the properties `fprops`, and decodes any `k` of these -/
structure NsCodes {Γ : Type} (E : Fec Γ) (w k m : Nat) (data : Array (List Nat)) (T : Nat) (frags : Array (List Nat))
    (fprops : Array Properties) : Prop where
  encode : ∀ mem : Nat → Nat,
    E.encode_streams_horizontal data (Array.replicate (k + m) []) (Array.replicate (k + m) .empty) mem = .ok (frags, fprops)
  decode : ∀ (datas pars outs : Array (Option (List Nat))) (props : Array Properties) (mem : Nat → Nat),
    pars.size = k + m → props.size = k + m → outs.size = k →
    (∀ f s, f < k + m → gt pars f = some s → s = gt frags f ∧ gt props f = gt fprops f) → k ≤ nAvail pars →
    ∃ res, E.decode_streams_horizontal datas pars props outs mem = .ok (true, res) ∧ res.size = k ∧
      ∀ i, i < k → gt res i = (gt outs i).map (fun s => s ++ (gt data i).take (T * w))

/-- the object `R` of the Fermat-number code `c`, with the context `C` and the memory `H` after whatever it did, codes `data` in
packets into the streams `frags` with the properties `fprops`, and decodes any `n_data` of the fragments -/
structure FntCode.Codes (c : FntCode) (R : RsFntObj) (C : CtxB) (H : Heap) (data frags : Array (List Nat)) (fprops : Array Properties) :
    Prop where
  encode : ∀ junk : Nat → Nat → Nat, ∃ C' H',
    (R.fecV c.b).encode_streams_vertical C data (Array.replicate c.nOut []) (Array.replicate c.nOut .empty) junk H
      = .ok (frags.map some, fprops, C', H')
  decode : ∀ (datas pars outs : Array (Option (List Nat))) (props : Array Properties) (mem : Nat → Nat) (junk : Nat → Nat → Nat),
    c.Surviving data frags fprops datas pars props → outs.size = c.k → (c.sys = true → avail datas < c.k) →
    c.k ≤ (if c.sys then avail datas else 0) + avail pars →
    ∃ o H', (R.fecV c.b).decode_streams_vertical datas pars props outs mem junk H = .ok (true, o, H') ∧ o.size = c.k ∧
      ∀ i, i < c.k → gt o i = (gt outs i).map (fun s => s ++ gt data i)

end Quad.Spec
