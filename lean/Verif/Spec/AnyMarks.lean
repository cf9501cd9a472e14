import Verif.Spec.AnyWords
import Mathlib.Algebra.Polynomial.Eval.Degree
import Mathlib.Data.ZMod.Basic

/-!
# Vocabulary for fragments and properties with any contents decoded word by word (C60)
-/

namespace Quad.Spec
open Polynomial

/-- Location `t` counts as out of range in the properties `P` when decoding word by word: it is listed with the mark `OOR_MARK` and with no smaller mark,
and no location before `t` is listed twice.  (The decoder goes through the sorted list, by one entry at most for each word; a location listed twice
stops it.) -/
def MarkedAt (P : Properties) (t : Nat) : Prop :=
  (t, OOR_MARK) ∈ P.props ∧ (∀ q ∈ P.props, q.1 = t → OOR_MARK ≤ q.2) ∧ ∀ s, s < t → (P.props.map Prod.fst).count s ≤ 1

instance (P : Properties) (t : Nat) : Decidable (MarkedAt P t) := by unfold MarkedAt; infer_instance

/-- The symbol at location `t` of a fragment with the bytes `s` and the properties `P`, in a code that stands for a symbol out of range by a marked word;
`out x` is the symbol that the marked word `x` stands for. -/
def symbolAt (w : Nat) (out : Nat → Nat) (s : List Nat) (P : Properties) (t : Nat) : Nat :=
  if MarkedAt P t then out (word w s t) else word w s t

/-- Encoding: at every location, the symbols of the `n` fragments are the values, at the powers of `g`, of the polynomial whose coefficients are the data
words. -/
def EncodesPoly {Γ : Type} (E : Fec Γ) {p : Nat} (g : ZMod p) (out : Nat → Nat) (w k n : Nat) : Prop :=
  ∀ (data : Array (List Nat)) (T : Nat) (mem : Nat → Nat), Gf2nData w k data T → ∃ frags fprops,
    E.encode_streams_horizontal data (Array.replicate n []) (Array.replicate n .empty) mem = .ok (frags, fprops) ∧
    frags.size = n ∧ fprops.size = n ∧ (∀ f, f < n → (gt frags f).length = T * w ∧ ∀ x ∈ gt frags f, x < 256) ∧ ∀ t, t < T → ∃ P : (ZMod p)[X], P.degree < k ∧ (∀ i, i < k → P.coeff i = word w (gt data i) t) ∧
      ∀ f, f < n → P.eval (g ^ f) = symbolAt w out (gt frags f) (gt fprops f) t

/-- Decoding succeeds, and appends `T` words to each output stream: word `t` of stream `i` is made of the low bytes of coefficient `i` of the only polynomial
of degree below `k` that has, at the powers of `g`, the symbols at `t` of the first `k` available fragments. -/
def DecodesPoly {Γ : Type} (E : Fec Γ) {p : Nat} (g : ZMod p) (out : Nat → Nat) (w k T : Nat) (datas pars outs : Array (Option (List Nat)))
    (props : Array Properties) (mem : Nat → Nat) : Prop :=
  ∃ (res : Array (Option (List Nat))) (o : Array (List Nat)),
    E.decode_streams_horizontal datas pars props outs mem = .ok (true, res) ∧ res.size = k ∧
    o.size = k ∧ (∀ i, i < k → (gt o i).length = T * w ∧ ∀ x ∈ gt o i, x < 256) ∧
    (∀ i, i < k → gt res i = (gt outs i).map (fun s => s ++ gt o i)) ∧
    ∀ t, t < T → ∃ P : (ZMod p)[X], P.degree < k ∧
      (∀ j ∈ picked k pars, P.eval (g ^ j) = symbolAt w out ((gt pars j).getD []) (gt props j) t) ∧
      (∀ Q : (ZMod p)[X], Q.degree < k →
        (∀ j ∈ picked k pars, Q.eval (g ^ j) = symbolAt w out ((gt pars j).getD []) (gt props j) t) → Q = P) ∧
      ∀ i, i < k → word w (gt o i) t = (P.coeff i).val % 256 ^ w

end Quad.Spec
