import Verif.Model.Driver
import Verif.Spec.Fnt

/-!
# Vocabulary for the program that codes and repairs files (C53, C54)
-/

namespace Quad.Spec
open Quad.Driver

/-- the data files hold `data` -/
def DataFiles (N : Names) (data : Array (List Nat)) (fs : Fs) : Prop :=
  ∀ i, i < data.size → fs (N.d i) = some (gt data i)

/-- the coding files and those of their properties hold `frags` and, as text, `fprops` -/
def CodingFiles (N : Names) (frags : Array (List Nat)) (fprops : Array Properties) (fs : Fs) : Prop :=
  ∀ f, f < frags.size → fs (N.c f) = some (gt frags f) ∧ fs (N.p f) = some (toBytes (gt fprops f).write)

/-- `x` is the name of a data file -/
def IsData (N : Names) (k : Nat) (x : Name) : Prop := ∃ i, i < k ∧ x = N.d i

/-- `x` is the name of a coding file or of its properties -/
def IsCoding (N : Names) (n : Nat) (x : Name) : Prop := ∃ f, f < n ∧ (x = N.c f ∨ x = N.p f)

/-- number of data files there are -/
def dataLeft (N : Names) (k : Nat) (fs : Fs) : Nat := (List.range k).countP (fun i => (fs (N.d i)).isSome)

/-- number of coding files there are -/
def codingLeft (N : Names) (n : Nat) (fs : Fs) : Nat := (List.range n).countP (fun f => (fs (N.c f)).isSome)

/-- Some files of a code were lost since `fs0`: those there are have the old contents.  The properties of a coding file are not lost without
the coding file. -/
structure Lost (N : Names) (k n : Nat) (fs0 fs : Fs) : Prop where
  data : ∀ i, i < k → fs (N.d i) = none ∨ fs (N.d i) = fs0 (N.d i)
  coding : ∀ f, f < n → fs (N.c f) = none ∨ (fs (N.c f) = fs0 (N.c f) ∧ fs (N.p f) = fs0 (N.p f))
  props : ∀ f, f < n → fs (N.p f) = none ∨ fs (N.p f) = fs0 (N.p f)

/-- there are enough files to repair the others: all the data files, or `k` fragments (the data files are fragments in systematic mode) -/
def Enough (N : Names) (sys : Bool) (k n : Nat) (fs : Fs) : Prop :=
  dataLeft N k fs = k ∨ k ≤ (if sys then dataLeft N k fs else 0) + codingLeft N n fs

/-- What C53 asks of a run of the program on a code object in the state `s`: the coding files made of `data` are `frags` with
`fprops`, and files lost later are made again, as long as there are enough.  `back` is what is made again of each data file. -/
structure KeepsFiles (F : Coder) (N : Names) (sys : Bool) (data back frags : Array (List Nat)) (fprops : Array Properties) (s : F.σ) : Prop where
  fsize : frags.size = F.n_outputs
  psize : fprops.size = F.n_outputs
  create : ∀ fs, DataFiles N data fs → ∃ fs' s', run F N false s fs = (fs', .done s') ∧ CodingFiles N frags fprops fs' ∧
    ∀ x, ¬ IsCoding N F.n_outputs x → fs' x = fs x
  repair : ∀ fs0 fs, DataFiles N data fs0 → CodingFiles N frags fprops fs0 → Lost N F.n_data F.n_outputs fs0 fs →
    Enough N sys F.n_data F.n_outputs fs → ∃ fs' s', run F N true s fs = (fs', .done s') ∧ CodingFiles N frags fprops fs' ∧
      (∀ i, i < F.n_data → fs' (N.d i) = some (if fs (N.d i) = none then gt back i else gt data i)) ∧
      ∀ x, ¬ IsData N F.n_data x → ¬ IsCoding N F.n_outputs x → fs' x = fs x

/-- C53 for a code used word by word: the coding files are what coding the data gives, the same whatever uninitialised memory holds, and what is made again of a data
file is its first `T` words. -/
def KeepsWords {Γ : Type} (E : Fec Γ) (w k n : Nat) (sys : Bool) (data : Array (List Nat)) (T : Nat) (frags : Array (List Nat))
    (fprops : Array Properties) : Prop :=
  E.base.n_data = k ∧ E.base.n_outputs = n ∧
  (∀ mem, E.encode_streams_horizontal data (Array.replicate n []) (Array.replicate n .empty) mem = .ok (frags, fprops)) ∧
  ∀ mem mem' N s, KeepsFiles (Coder.horizontal E mem mem') N sys data (data.map (fun f => f.take (T * w))) frags fprops s

/-- The opposite of what C54 asks: when there are not enough files, a repair ends as a successful one does, with the missing data files there
but empty, and with every coding file and its properties, of which some were there, empty. -/
def RuinsFiles (F : Coder) (N : Names) (sys : Bool) (data frags : Array (List Nat)) (fprops : Array Properties) (s : F.σ) : Prop :=
  ∀ fs0 fs, DataFiles N data fs0 → CodingFiles N frags fprops fs0 → Lost N F.n_data F.n_outputs fs0 fs →
    ¬ Enough N sys F.n_data F.n_outputs fs → ∃ fs' s', run F N true s fs = (fs', .done s') ∧
      (∀ i, i < F.n_data → fs' (N.d i) = some (if fs (N.d i) = none then [] else gt data i)) ∧
      ∀ f, f < F.n_outputs → fs' (N.c f) = some [] ∧ fs' (N.p f) = some []

/-- `RuinsFiles` for a code used word by word -/
def RuinsWords {Γ : Type} (E : Fec Γ) (k n : Nat) (sys : Bool) (data frags : Array (List Nat)) (fprops : Array Properties) : Prop :=
  E.base.n_data = k ∧ E.base.n_outputs = n ∧ ∀ mem mem' N s, RuinsFiles (Coder.horizontal E mem mem') N sys data frags fprops s

end Quad.Spec
