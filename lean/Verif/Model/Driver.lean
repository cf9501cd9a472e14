import Verif.Model.FecBuf
import Verif.Model.Property

/-!
# Model of test/ec_driver.cpp: the program that codes and repairs files

The file system is a map from names to contents.  Opening a file that exists for reading, and opening any file for writing,
succeeds; nothing else changes the files while the program runs.  What is written to a file is there when the
file is closed.  Messages and statistics are not modelled.
-/

namespace Quad.Driver

/-- file names -/
abbrev Name := List Char

/-- the files: contents in bytes, `none` if there is no such file -/
abbrev Fs := Name → Option (List Nat)

/-- a file created or replaced -/
def put (fs : Fs) (n : Name) (s : List Nat) : Fs := fun x => if x = n then some s else fs x

/-- `count_digits` (ec_driver.cpp:77-85) -/
def count_digits (number : Nat) : Nat :=
  if _h : number = 0 then 0 else count_digits (number / 10) + 1
termination_by number
decreasing_by omega

/-- `std::setfill('0') << std::setw(zpad)` for a number -/
def pad (zpad : Nat) (s : List Char) : List Char := List.replicate (zpad - s.length) '0' ++ s

/-- `get_filename` (ec_driver.cpp:87-98) -/
def get_filename (pfx : List Char) (type : Char) (zpad part : Nat) (ext : List Char) : Name :=
  pfx ++ ['.', type] ++ pad zpad (Properties.decStr part) ++ ext

/-- text as bytes -/
def toBytes (s : List Char) : List Nat := s.map Char.toNat

/-- bytes as text -/
def ofBytes (s : List Nat) : List Char := s.map Char.ofNat

/-- What the driver uses of `FecCode<T>`: the numbers of fragments and the two functions on streams it calls, with the state they
keep.  Output streams are those written, `none` for a null pointer. -/
structure Coder where
  σ : Type
  n_data : Nat
  n_outputs : Nat
  enc : σ → Array (List Nat) → Array (List Nat) → Array Properties → Res (Array (Option (List Nat)) × Array Properties × σ)
  dec : σ → Array (Option (List Nat)) → Array (Option (List Nat)) → Array Properties → Array (Option (List Nat)) →
    Res (Bool × Array (Option (List Nat)) × σ)

/-- `operation_on_packet = true` (ec_driver.cpp:153-154, 253-254).  The state is the object's context, its memory and the number of calls;
`mem`, `junk` and `junk'` are the contents of uninitialised memory in each call. -/
def Coder.vertical (E : FecV) (mem : Nat → Nat → Nat) (junk junk' : Nat → Nat → Nat → Nat) : Coder where
  σ := CtxB × Heap × Nat
  n_data := E.base.n_data
  n_outputs := E.base.n_outputs
  enc := fun s data outs props => do
    let (o, p, C, H) ← E.encode_streams_vertical s.1 data outs props (junk s.2.2) s.2.1
    pure (o, p, C, H, s.2.2 + 1)
  dec := fun s datas pars props outs => do
    let (v, o, H) ← E.decode_streams_vertical datas pars props outs (mem s.2.2) (junk' s.2.2) s.2.1
    pure (v, o, s.1, H, s.2.2 + 1)

/-- `operation_on_packet = false` (ec_driver.cpp:156, 256).  The state is the number of calls. -/
def Coder.horizontal {Γ : Type} (E : Fec Γ) (mem mem' : Nat → Nat → Nat) : Coder where
  σ := Nat
  n_data := E.base.n_data
  n_outputs := E.base.n_outputs
  enc := fun s data outs props => do
    let (o, p) ← E.encode_streams_horizontal data outs props (mem s)
    pure (o.map some, p, s + 1)
  dec := fun s datas pars props outs => do
    let (v, o) ← E.decode_streams_horizontal datas pars props outs (mem' s)
    pure (v, o, s + 1)

/-- how a function of the driver ends: it returns, it calls `std::exit(EXIT_FAILURE)`, or the library throws or fails -/
inductive End (σ : Type) where
  | done (s : σ)
  | exit
  | raised (e : Err)

/-- the `prefix` and the widths of the numbers, `data_zpad` and `coding_zpad` -/
structure Names where
  pfx : List Char
  data_zpad : Nat
  coding_zpad : Nat

/-- name of data file `i` -/
def Names.d (N : Names) (i : Nat) : Name := get_filename N.pfx 'd' N.data_zpad i []

/-- name of coding file `i` -/
def Names.c (N : Names) (i : Nat) : Name := get_filename N.pfx 'c' N.coding_zpad i []

/-- name of the properties of coding file `i` -/
def Names.p (N : Names) (i : Nat) : Name := get_filename N.pfx 'c' N.coding_zpad i ".props".toList

variable (F : Coder) (N : Names)

/-- opening the coding files and their properties for writing (ec_driver.cpp:128-151) -/
def openCoding (n : Nat) (fs : Fs) : Fs :=
  (List.range n).foldl (fun fs i => put (put fs (N.c i) []) (N.p i) []) fs

/-- closing them (ec_driver.cpp:164-172) -/
def closeCoding (n : Nat) (outs : Array (Option (List Nat))) (props : Array Properties) (fs : Fs) : Fs :=
  (List.range n).foldl (fun fs i =>
    let fs := put fs (N.p i) (toBytes (gt props i).write)
    match gt outs i with
    | some s => put fs (N.c i) s
    | none => fs) fs

/-- `create_coding_files` (ec_driver.cpp:104-173): the files afterwards, and how it ended.  If the library throws, what it had written is
left out: the coding files are empty. -/
def create_coding_files (s : F.σ) (fs : Fs) : Fs × End F.σ :=
  if (List.range F.n_data).all (fun i => (fs (N.d i)).isSome) then
    let fs := openCoding N F.n_outputs fs
    let data := Array.ofFn (fun i : Fin F.n_data => (fs (N.d i)).getD [])
    match F.enc s data (Array.replicate F.n_outputs []) (Array.replicate F.n_outputs .empty) with
    | .error e => (fs, .raised e)
    | .ok (outs, props, s) => (closeCoding N F.n_outputs outs props fs, .done s)
  else (fs, .exit)

/-- the loop over the data files (ec_driver.cpp:191-217): a missing file is created; which were missing -/
def openData (n : Nat) (fs : Fs) : Fs × Array Bool :=
  (List.range n).foldl (fun (st : Fs × Array Bool) i =>
    match st.1 (N.d i) with
    | none => (put st.1 (N.d i) [], st.2.push true)
    | some _ => (st.1, st.2.push false)) (fs, #[])

/-- reading the properties of the coding files that are there (ec_driver.cpp:236-250) -/
def readProps (n : Nat) (fs : Fs) : Res (Array Properties) :=
  forN n (Array.replicate n .empty) (fun i props => do
    match fs (N.p i) with
    | none => pure props
    | some s => do
      let P ← rd props i
      let P ← P.read (ofBytes s)
      wr props i P)

/-- closing the data files that were missing (ec_driver.cpp:278-283) -/
def closeData (n : Nat) (missing : Array Bool) (outs : Array (Option (List Nat))) (fs : Fs) : Fs :=
  (List.range n).foldl (fun fs i =>
    if gt missing i then
      match gt outs i with
      | some s => put fs (N.d i) s
      | none => fs
    else fs) fs

/-- `repair_data_files` (ec_driver.cpp:179-286).  It returns 0 whatever the decoder returns. -/
def repair_data_files (s : F.σ) (fs : Fs) : Fs × End F.σ :=
  let (fs, missing) := openData N F.n_data fs
  let datas := Array.ofFn (fun i : Fin F.n_data => if gt missing i then none else fs (N.d i))
  let outs := Array.ofFn (fun i : Fin F.n_data => if gt missing i then some [] else none)
  let pars := Array.ofFn (fun i : Fin F.n_outputs => fs (N.c i))
  match readProps N F.n_outputs fs with
  | .error e => (fs, .raised e)
  | .ok props =>
    match F.dec s datas pars props outs with
    | .error e => (fs, .raised e)
    | .ok (_, outs, s) => (closeData N F.n_data missing outs fs, .done s)

/-- `run_fec_*` (ec_driver.cpp:319-481) on a code object in the state `s`: repair if asked to, then creation of the coding files -/
def run (rflag : Bool) (s : F.σ) (fs : Fs) : Fs × End F.σ :=
  if rflag then
    match repair_data_files F N s fs with
    | (fs, .done s) => create_coding_files F N s fs
    | r => r
  else create_coding_files F N s fs

/-- the names used for a code with the given numbers of fragments (ec_driver.cpp:338, 589); the subtractions wrap around -/
def names (pfx : List Char) (n_data n_outputs : Nat) : Names :=
  ⟨pfx, count_digits (wrap 32 (n_data + (2 ^ 32 - 1))), count_digits (wrap 32 (n_outputs + (2 ^ 32 - 1)))⟩

end Quad.Driver
