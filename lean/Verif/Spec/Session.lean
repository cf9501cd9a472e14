import Verif.Model.Session

/-!
# What several encodings and decodings at once must give

The right results of each are those it would give alone: they are told from its own data and from how many packets it has done.
-/

namespace Quad.Spec
open Quad

/-- packet `j` of a stream, of `size` bytes, completed with zeros -/
def packet (size : Nat) (s : List Nat) (j : Nat) : Array Nat := Array.ofFn (fun i : Fin size => s.getD (j * size + i) 0)

/-- the properties of the first `n` words -/
def upTo (n : Nat) (P : Properties) : Properties := ⟨P.props.filter (fun x => decide (x.1 < n))⟩

/-- An encoding of `data`, whose output fragments are `frags` with the properties `fprops`, or a decoding of `data` from those of its
fragments whose numbers are `ids`, with the properties `props`. -/
inductive Task
  | enc (data frags : Array (List Nat)) (fprops : Array Properties)
  | dec (data frags : Array (List Nat)) (fprops props : Array Properties) (ids : Array Nat)
deriving Inhabited

/-- fragment `f`: in systematic mode the first `k` are the data -/
def fragment (sys : Bool) (k : Nat) (data frags : Array (List Nat)) (f : Nat) : List Nat :=
  if sys then (if f < k then gt data f else gt frags (f - k)) else gt frags f

/-- what the program works on -/
def Task.job (sys : Bool) (k : Nat) : Task → Session.Job
  | .enc data _ _ => .enc data
  | .dec data frags _ props ids => .dec ids (ids.map (fragment sys k data frags)) props

/-- what packet `j` must give: of an encoding the packets of the fragments, with the properties so far; of a decoding the packets of the data -/
def Task.event (pkt w : Nat) (i j : Nat) : Task → Session.Event
  | .enc _ frags fprops => ⟨i, frags.map (fun s => packet (pkt * w) s j), fprops.map (upTo ((j + 1) * pkt))⟩
  | .dec data _ _ _ _ => ⟨i, data.map (fun s => packet (pkt * w) s j), #[]⟩

/-- a step of a program: begin a task, or do the next packet of task `i` -/
inductive Step
  | start (t : Task) (mem : Nat → Nat) (junk : Nat → Nat → Nat)
  | next (i : Nat) (junk : Nat → Nat → Nat)

/-- the step as calls of the library -/
def Step.act (sys : Bool) (k : Nat) : Step → Session.Act
  | .start t mem junk => .start (t.job sys k) mem junk
  | .next i junk => .next i junk

/-- the tasks are all of `ok`, and each has begun before its packets; `n` have begun before -/
def ValidSteps (ok : Task → Prop) : Nat → List Step → Prop
  | _, [] => True
  | n, .start t _ _ :: l => ok t ∧ ValidSteps ok (n + 1) l
  | n, .next i _ :: l => i < n ∧ ValidSteps ok n l

/-- all that the packets must give, in order; `a` holds the tasks that have begun and the number of packets each has done -/
def expected (pkt w : Nat) : Array (Task × Nat) → List Step → List Session.Event
  | _, [] => []
  | a, .start t _ _ :: l => expected pkt w (a.push (t, 0)) l
  | a, .next i _ :: l => (gt a i).1.event pkt w i (gt a i).2 :: expected pkt w (a.setIfInBounds i ((gt a i).1, (gt a i).2 + 1)) l

/-- The tasks a code with `k` data, `m` parities and `nOut` outputs must do: the fragments are those of an encoding, as `Enc` says; a decoding
is given any `k` of the `k + m` fragments, and the properties of those that are outputs. -/
def Task.Ok (sys : Bool) (k m nOut : Nat) (Enc : Array (List Nat) → Array (List Nat) → Array Properties → Prop) : Task → Prop
  | .enc data frags fprops => Enc data frags fprops
  | .dec data frags fprops props ids => Enc data frags fprops ∧
      ids.size = k ∧ (∀ i j, i < k → j < k → gt ids i = gt ids j → i = j) ∧ (∀ i, i < k → gt ids i < k + m) ∧ props.size = nOut ∧
      ∀ i f, i < k → f < nOut → gt ids i = (if sys then k + f else f) → gt props f = gt fprops f

end Quad.Spec
