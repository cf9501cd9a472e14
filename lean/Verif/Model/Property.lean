import Verif.Base

/-!
# Model of src/property.h and src/property.cpp
-/

namespace Quad

/-- `OOR_MARK` (property.h:47) -/
def OOR_MARK : Nat := 1

/-- byte swap of a 32-bit word: `htonl` / `ntohl` on a little-endian host -/
def bswap32 (x : Nat) : Nat :=
  (x % 256) * 2 ^ 24 + (x / 2 ^ 8 % 256) * 2 ^ 16 + (x / 2 ^ 16 % 256) * 2 ^ 8 + x / 2 ^ 24 % 256

/-- A `Properties` object: its `props` vector of (location, marker)
(property.h:60-64) -/
structure Properties where
  props : List (Nat × Nat)
  deriving DecidableEq, Repr, Inhabited

namespace Properties

/-- `FNT1` (property.h:70) -/
def FNT1 : Nat := 0x464E5431

def empty : Properties := ⟨[]⟩

/-- `add` (property.h:76-79): `location` is a 64-bit, `marker` a 32-bit word -/
def add (P : Properties) (location marker : Nat) : Properties := ⟨P.props ++ [(location, marker)]⟩

/-- `clear` (property.h:81-84) -/
def clear (_ : Properties) : Properties := ⟨[]⟩

/-- the order of `std::pair` -/
def pairLe (x y : Nat × Nat) : Bool := decide (x.1 < y.1 ∨ (x.1 = y.1 ∧ x.2 ≤ y.2))

/-- `sort` (property.h:94-97) -/
def sort (P : Properties) : Properties := ⟨P.props.mergeSort pairLe⟩

/-- writes of the loop `for (auto const& item : props)` (property.h:110-112);
`narrow_cast<uint32_t>` keeps the low 32 bits -/
def writeLocs : List (Nat × Nat) → Nat → Array Nat → Res (Nat × Array Nat)
  | [], i, d => .ok (i, d)
  | it :: t, i, d => do
    let d ← wr d i (bswap32 (it.1 % 2 ^ 32))
    writeLocs t (i + 1) d

/-- `fnt_serialize` (property.h:103-118) into an area of `dwords.size` words:
the returned code and the area.  `std::fill(first, last, 0)` with
`first > last` is undefined. -/
def fnt_serialize (P : Properties) (dwords : Array Nat) : Res (Int × Array Nat) :=
  let n_dwords := dwords.size
  if 2 + P.props.length > n_dwords then .ok (-1, dwords)
  else do
    let d ← wr dwords 0 (bswap32 FNT1)
    let (i, d) ← writeLocs P.props 2 d
    let d ← wr d 1 (bswap32 ((i - 2) % 2 ^ 32))
    if i > n_dwords - 1 then ub
    else do
      let d ← forStep i (n_dwords - 1) 1 d (fun k d => wr d k (bswap32 0))
      pure (0, d)

/-- `fnt_deserialize` (property.h:125-143): the returned code and the object.
`2 + _n_dwords` is computed in 32 bits. -/
def fnt_deserialize (P : Properties) (dwords : Array Nat) : Res (Int × Properties) :=
  let n_dwords := dwords.size
  if n_dwords < 2 then .ok (-1, P)
  else do
    let d0 ← rd dwords 0
    let magic := bswap32 d0
    if magic ≠ FNT1 then pure (-1, P)
    else do
      let d1 ← rd dwords 1
      let cnt := bswap32 d1
      if (2 + cnt) % 2 ^ 32 > n_dwords then pure (-1, P)
      else do
        let P ← forN cnt P (fun i P => do
          let w ← rd dwords ((i + 2) % 2 ^ 32)
          pure (P.add (bswap32 w) OOR_MARK))
        pure (0, P)

/-- `location` (property.h:153-156) -/
def location (P : Properties) (index : Nat) : Nat := ((P.props[index]?).getD (0, 0)).1

/-- `marker` (property.h:166-169) -/
def marker (P : Properties) (index : Nat) : Nat := ((P.props[index]?).getD (0, 0)).2

/-- `is_marked` (property.h:179-182) -/
def is_marked (P : Properties) (index loc : Nat) : Bool :=
  match P.props[index]? with
  | some x => x.1 = loc
  | none => false

/-- `in_range` (property.h:193-198) -/
def in_range (P : Properties) (index min max : Nat) : Bool :=
  match P.props[index]? with
  | some x => decide (x.1 ≥ min ∧ x.1 < max)
  | none => false

/-! ### text format -/

/-- a decimal digit -/
def digitChar (d : Nat) : Char := Char.ofNat (48 + d)

/-- decimal representation (`os << n`) -/
def decStr (n : Nat) : List Char :=
  if _h : n < 10 then [digitChar n] else decStr (n / 10) ++ [digitChar (n % 10)]
termination_by n
decreasing_by omega

/-- `operator<<` (property.cpp:70-78) -/
def write (P : Properties) : List Char :=
  P.props.flatMap (fun it => decStr it.1 ++ [' ', '=', ' '] ++ decStr it.2 ++ ['\n'])

/-- `std::getline`: the next line and the rest, `none` at end of file -/
def getline (s : List Char) : Option (List Char × List Char) :=
  if s.isEmpty then none
  else some (s.takeWhile (· ≠ '\n'), (s.dropWhile (· ≠ '\n')).drop 1)

/-- `" \f\t\v"` -/
def isBlank (c : Char) : Bool := c = ' ' || c.toNat = 12 || c = '\t' || c.toNat = 11

/-- `" \f\n\r\t\v"` -/
def isSpace (c : Char) : Bool := isBlank c || c = '\n' || c = '\r'

/-- drop trailing characters in a set: `s.erase(s.find_last_not_of(set) + 1)` -/
def rstrip (f : Char → Bool) (s : List Char) : List Char := (s.reverse.dropWhile f).reverse

def isDigit (c : Char) : Bool := 48 ≤ c.toNat && c.toNat ≤ 57

/-- value of a string of digits -/
def decVal (s : List Char) : Nat := s.foldl (fun a c => a * 10 + (c.toNat - 48)) 0

/-- the optional sign -/
def splitSign : List Char → Bool × List Char
  | [] => (false, [])
  | c :: t => if c = '+' then (false, t) else if c = '-' then (true, t) else (false, c :: t)

/-- `std::stoul` on 64-bit `unsigned long`: white space, a sign, digits.
No digits: `invalid_argument`; too large: `out_of_range` (both are exceptions;
the model has one constructor for each library class, `logicError` is used for
these standard ones). -/
def stoul (s : List Char) : Res Nat :=
  let s := s.dropWhile isSpace
  let neg := (splitSign s).1
  let ds := (splitSign s).2.takeWhile isDigit
  if ds.isEmpty then .error (.throws .logicError)
  else
    let v := decVal ds
    if v ≥ 2 ^ 64 then .error (.throws .logicError)
    else .ok (if neg then (2 ^ 64 - v) % 2 ^ 64 else v)

/-- one line of `operator>>` (property.cpp:42-64) -/
def readLine (P : Properties) (line : List Char) : Res Properties :=
  let rest := line.dropWhile isBlank
  match rest with
  | [] => .ok P
  | c :: _ =>
    if c = '#' ∨ c = ';' then .ok P
    else
      let key := rstrip isBlank (rest.takeWhile (· ≠ '='))
      if key.isEmpty then .ok P
      else
        -- the data start after '=', or at the start of the line if there is none
        let after := if rest.contains '=' then (rest.dropWhile (· ≠ '=')).drop 1 else line
        let data := rstrip isSpace (after.dropWhile isSpace)
        -- `substr(npos, ..)` throws out_of_range
        if data.isEmpty then .error (.throws .logicError)
        else do
          let k ← stoul key
          let v ← stoul data
          pure (P.add k (v % 2 ^ 32))

/-- `operator>>` (property.cpp:37-68); `fuel` bounds the number of lines -/
def readF : Nat → Properties → List Char → Res Properties
  | 0, _, _ => .error .diverges
  | fuel + 1, P, s =>
    match getline s with
    | none => .ok P
    | some (l, rest) => do
      let P ← readLine P l
      readF fuel P rest

def read (P : Properties) (s : List Char) : Res Properties := readF (s.length + 1) P s

end Properties
end Quad
