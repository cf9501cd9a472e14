import Verif.Model.NF4

/-!
# What words of packed elements of GF(65537) are

Independent of the model's functions.
-/

namespace Quad.Spec

/-- lane `l` of 32 bits of a word -/
def lane32 (a l : Nat) : Nat := a / 2 ^ (32 * l) % 2 ^ 32

/-- lane `l` of 16 bits of a word -/
def lane16 (a l : Nat) : Nat := a / 2 ^ (16 * l) % 2 ^ 16

/-- a word holding `n` elements of GF(65537), one in each lane of 32 bits -/
structure Packed (n a : Nat) : Prop where
  lt : a < 2 ^ (32 * n)
  lane : ∀ l, l < n → lane32 a l < 65537

/-- a word type of `b` bits has room for `n` lanes; `simd = some (R, hi)` for the vectorised functions, which exist for
`__uint128_t`, with registers of 16 bytes (SSE4.1) or 32 (AVX2) -/
structure Nf4Build (b n : Nat) (simd : Option (Nat × (Nat → Nat))) : Prop where
  width : b = 32 ∨ b = 64 ∨ b = 128
  pos : 0 < n
  fit : 32 * n ≤ b
  vec : ∀ R hi, simd = some (R, hi) → b = 128 ∧ (R = 16 ∨ R = 32)

/-- the object the constructor gives -/
structure IsNf4 (N : NF4) (b n : Nat) (simd : Option (Nat × (Nat → Nat))) : Prop where
  build : Nf4Build b n simd
  built : NF4.mk' b n simd = .ok N

/-- parameters of the packed Fermat code: words of 2, 4 or 8 bytes, one 16-bit symbol for each 32-bit lane the word type has room for,
at least one data and one parity fragment, `k + m` and `2 k` at most 65536 -/
structure Nf4Params (b : Nat) (simd : Option (Nat × (Nat → Nat))) (w k m : Nat) : Prop where
  hw : w = 2 ∨ w = 4 ∨ w = 8
  build : Nf4Build b (w / 2) simd
  hk : 0 < k
  hm : 0 < m
  len : k + m ≤ 65536
  two : 2 * k ≤ 65536

/-- what a build uses: no vector registers, or registers of 16 bytes (SSE4.1) or 32 (AVX2) -/
def Nf4Reg (reg : Option Nat) : Prop := reg = none ∨ reg = some 16 ∨ reg = some 32

end Quad.Spec
