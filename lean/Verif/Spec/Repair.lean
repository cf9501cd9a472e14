import Verif.Spec.FecGf2n

/-!
# Vocabulary for repairing lost fragments (C82)
-/

namespace Quad.Spec

/-- the `n` fragments `E` gives for `data`, word by word -/
def CodesTo {Γ : Type} (E : Fec Γ) (n : Nat) (data frags : Array (List Nat)) (fprops : Array Properties) (mem : Nat → Nat) : Prop :=
  E.encode_streams_horizontal data (Array.replicate n []) (Array.replicate n .empty) mem = .ok (frags, fprops)

/-- non-systematic code: what is decoded from any `k` of the fragments of some data is coded into all these fragments and properties again -/
def Repairs {Γ : Type} (E : Fec Γ) (w k m : Nat) : Prop :=
  ∀ {data frags : Array (List Nat)} {fprops : Array Properties} {T : Nat} {mem : Nat → Nat}, Gf2nData w k data T →
    CodesTo E (k + m) data frags fprops mem →
    ∀ (datas pars : Array (Option (List Nat))) (props : Array Properties) (mem' : Nat → Nat), pars.size = k + m → props.size = k + m →
      (∀ f s, f < k + m → gt pars f = some s → s = gt frags f ∧ gt props f = gt fprops f) → k ≤ nAvail pars →
      ∃ D : Array (List Nat), E.decode_streams_horizontal datas pars props (Array.replicate k (some [])) mem' = .ok (true, D.map some) ∧
        ∀ mem'', CodesTo E (k + m) D frags fprops mem''

/-- systematic code: the same from any `k` of the data and coded fragments that satisfy `sel`, if data are lost -/
def RepairsSys {Γ : Type} (E : Fec Γ) (w k m : Nat) (sel : Array (Option (List Nat)) → Array (Option (List Nat)) → Prop) : Prop :=
  ∀ {data frags : Array (List Nat)} {fprops : Array Properties} {T : Nat} {mem : Nat → Nat}, Gf2nData w k data T →
    CodesTo E m data frags fprops mem →
    ∀ (datas pars : Array (Option (List Nat))) (props : Array Properties) (mem' : Nat → Nat), Gf2nSurviving k m data frags fprops datas pars props →
      nAvail datas < k → k ≤ nAvail datas + nAvail pars → sel datas pars →
      ∃ D : Array (List Nat), E.decode_streams_horizontal datas pars props (Array.replicate k (some [])) mem' = .ok (true, D.map some) ∧
        (∀ i, i < k → gt D i = (gt data i).take (T * w)) ∧ ∀ mem'', CodesTo E m D frags fprops mem''

end Quad.Spec
