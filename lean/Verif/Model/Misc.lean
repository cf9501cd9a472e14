import Verif.Model.Fec

/-!
# src/misc.cpp: printing of 128-bit integers and of memory

Characters are their codes (ASCII).  What a stream is given is the list of characters
written to its buffer.  Simplifications: the sentry of the stream is taken to be good and the
stream buffer to accept all characters; the locale is "C".
-/

namespace Quad.Misc

/-- the literal `"0123456789"` with its terminating zero -/
def decimals : Array Nat := #[48, 49, 50, 51, 52, 53, 54, 55, 56, 57, 0]

/-- the `do … while` loop of both operators (misc.cpp:42-46, 63-67); `d` is the distance of
the pointer `d` from the start of `buffer`: moving it in front of the buffer is undefined -/
def digitLoop : (d tmp : Nat) → Array Nat → Res (Nat × Array Nat)
  | 0, _, _ => ub
  | d + 1, tmp, buffer => do
    let c ← rd decimals (tmp % 10)
    let buffer ← wr buffer d c
    let tmp := tmp / 10
    if tmp ≠ 0 then digitLoop d tmp buffer else pure (d, buffer)

/-- `operator<<(std::ostream&, __uint128_t)` (misc.cpp:35-54); `mem` is what the new `buffer`
holds -/
def print_u128 (mem : Nat → Nat) (value : Nat) : Res (List Nat) := do
  let (d, buffer) ← digitLoop 128 value (fresh mem 128)
  pure (buffer.toList.drop d)

/-- `-value` for `__int128_t` (misc.cpp:60): the opposite of the least value is undefined -/
def negI128 (value : Int) : Res Int := if value = -2 ^ 127 then ub else ok (-value)

/-- `operator<<(std::ostream&, __int128_t)` (misc.cpp:56-78) -/
def print_i128 (mem : Nat → Nat) (value : Int) : Res (List Nat) := do
  let tmp ← if value < 0 then negI128 value else ok value
  let (d, buffer) ← digitLoop 128 (tmp % 2 ^ 128).toNat (fresh mem 128)
  if value < 0 then
    if d = 0 then ub
    else do
      let buffer ← wr buffer (d - 1) 45
      pure (buffer.toList.drop (d - 1))
  else pure (buffer.toList.drop d)

/-- where a stream puts the fill characters (`std::ios_base::adjustfield`) -/
inductive Adjust where
  | left | right | internal
  deriving DecidableEq, Repr

/-- base of integers (`std::ios_base::basefield`) -/
inductive IntBase where
  | dec | hex | oct
  deriving DecidableEq, Repr

/-- the flags of a stream that matter for integers (`os.flags()`) -/
structure Flags where
  base : IntBase
  adjust : Adjust
  showbase : Bool
  uppercase : Bool
  deriving DecidableEq, Repr

/-- a stream: what was written to it, its flags and its fill character -/
structure OS where
  out : List Nat
  flags : Flags
  fill : Nat
  deriving DecidableEq, Repr

/-- `os << s` for a literal -/
def OS.put (os : OS) (s : List Nat) : OS := { os with out := os.out ++ s }

/-- digit of a number, in lower or upper case -/
def digit (upper : Bool) (x : Nat) : Nat := if x < 10 then 48 + x else if upper then 55 + x else 87 + x

/-- digits of a number in base `b`, the last `n + 1` at most (32 are enough for `unsigned`) -/
def digits (upper : Bool) (b : Nat) : Nat → Nat → List Nat
  | 0, x => [digit upper (x % b)]
  | n + 1, x => if x < b then [digit upper x] else digits upper b n (x / b) ++ [digit upper (x % b)]

/-- `os << std::setw(w) << x` for an `unsigned` `x`, as the C++ standard has it (`std::num_put`) -/
def OS.putUnsigned (os : OS) (w x : Nat) : OS :=
  let f := os.flags
  let ds := digits f.uppercase (match f.base with | .dec => 10 | .hex => 16 | .oct => 8) 31 x
  let pre := if f.showbase && x ≠ 0 then
      (match f.base with | .dec => [] | .hex => [48, if f.uppercase then 88 else 120] | .oct => [48])
    else []
  let pad := List.replicate (w - (pre.length + ds.length)) os.fill
  os.put (match f.adjust with
    | .left => pre ++ ds ++ pad
    | .right => pad ++ pre ++ ds
    | .internal => pre ++ pad ++ ds)

/-- `std::isprint` in the "C" locale -/
def isprint (c : Nat) : Bool := 32 ≤ c && c ≤ 126

/-- the characters of a string from place `i` up to its terminating zero, looking at `fuel`
places at most: running over the end of the array is undefined -/
def cstr (a : Array Nat) : (fuel i : Nat) → Res (List Nat)
  | 0, _ => ub
  | fuel + 1, i => do
    let c ← rd a i
    if c = 0 then pure []
    else do
      let r ← cstr a fuel (i + 1)
      pure (c :: r)

/-- `maxline` (misc.cpp:95) -/
def maxline : Nat := 32

/-- variables of `hex_dump`; `rsptr` as distance from `renderString` -/
structure DumpSt where
  os : OS
  rs : Array Nat
  rsptr : Nat
  linecount : Nat

/-- `*rsptr++ = c` -/
def DumpSt.push (s : DumpSt) (c : Nat) : Res DumpSt := do
  let rs ← wr s.rs s.rsptr c
  pure { s with rs := rs, rsptr := s.rsptr + 1 }

/-- `os << renderString` -/
def DumpSt.putRender (s : DumpSt) : Res DumpSt := do
  let t ← cstr s.rs (s.rs.size + 1) 0
  pure { s with os := s.os.put t }

/-- body of the loop on the bytes (misc.cpp:103-114) -/
def dumpStep (show_ : Bool) (b bufsize : Nat) (s : DumpSt) : Res DumpSt := do
  let os := { s.os with fill := 48, flags := { s.os.flags with base := .hex } }
  let s := { s with os := (os.putUnsigned 2 b).put [32] }
  let s ← s.push (if isprint b then b else 46)
  let s := { s with linecount := wrap 64 (s.linecount + (2 ^ 64 - 1)) }
  if s.linecount = 0 then do
    let s ← s.push 0
    let s ← if show_ then DumpSt.putRender { s with os := s.os.put [32, 124, 32] } else pure s
    pure { s with os := s.os.put [10], rsptr := 0, linecount := min maxline bufsize }
  else pure s

/-- the loop on the bytes (misc.cpp:102-115); `pos` is the distance of `buf` from `buffer` -/
def dumpLoop (show_ : Bool) (buffer : Array Nat) : (bufsize pos : Nat) → DumpSt → Res DumpSt
  | 0, _, s => ok s
  | n + 1, pos, s => do
    let b ← rd buffer pos
    let s ← dumpStep show_ b (n + 1) s
    dumpLoop show_ buffer n (pos + 1) s

/-- the loop that fills the last line up (misc.cpp:119-122) after `*rsptr++ = '\0'`; the
pointer runs out of the array if it starts behind its end -/
def padLoop : (fuel : Nat) → DumpSt → Res DumpSt
  | 0, _ => .error .diverges
  | fuel + 1, s =>
    if s.rsptr = maxline + 1 then ok s
    else if maxline + 1 < s.rsptr then ub
    else padLoop fuel { s with os := s.os.put [32, 32, 32], rsptr := s.rsptr + 1 }

/-- `hex_dump` (misc.cpp:84-131); `buffer` is `none` for the null pointer, else the object it
points to; `mem` is what the new `renderString` holds -/
def hex_dump (mem : Nat → Nat) (os : OS) (buffer : Option (Array Nat)) (bufsize : Nat)
    (showPrintableChars : Bool) : Res OS :=
  match buffer with
  | none => ok os
  | some buffer => do
    let s ← dumpLoop showPrintableChars buffer bufsize 0 ⟨os, fresh mem (maxline + 1), 0, maxline⟩
    let s ← if s.rsptr ≠ 0 then do
        let s ← if showPrintableChars then do
            let s ← s.push 0
            let s ← padLoop (maxline + 2) s
            DumpSt.putRender { s with os := s.os.put [32, 124, 32] }
          else pure s
        pure { s with os := s.os.put [10] }
      else pure s
    pure { s.os with fill := os.fill, flags := os.flags }

/-- `quadiron_hex_dump` (quadiron_c.cpp:408-411): `cerr` is the standard error stream -/
def quadiron_hex_dump (mem : Nat → Nat) (cerr : OS) (buf : Option (Array Nat)) (size : Nat) : Res OS :=
  hex_dump mem cerr buf size true

end Quad.Misc
