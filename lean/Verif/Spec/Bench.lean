import Verif.Model.Bench
import Verif.Spec.Fnt

/-!
# Vocabulary for the benchmark (C70, C71)
-/

namespace Quad.Spec
open Quad.Driver Quad.Bench

/-- a chunk of `n` bytes -/
structure Chunk (n : Nat) (buf : Array Nat) : Prop where
  size : buf.size = n
  bytes : ∀ i, i < n → gt buf i < 256

/-- the chunks differ at most in the `len` bytes from `lo` on -/
def DifferOnlyIn (lo len : Nat) (a b : Array Nat) : Prop := ∀ i, ¬ (lo ≤ i ∧ i < lo + len) → gt a i = gt b i

/-- an order of the numbers of the `n` chunks, as a shuffle leaves it -/
def Order (n : Nat) (ids : Array Nat) : Prop := ids.toList.Perm (List.range n)

/-- the first `k` chunks of an order are not just the data chunks -/
def TakesCoded (k : Nat) (ids : Array Nat) : Prop := ∃ i, i < k ∧ k ≤ gt ids i

/-- Shuffles for a decoding: orders of all the chunks, and for a systematic code one of them takes a coded chunk. -/
def Shuffles (sys : Bool) (k n : Nat) (l : List (Array Nat)) : Prop :=
  (∀ ids ∈ l, Order n ids) ∧ ∃ ids ∈ l, sys = true → TakesCoded k ids

/-- the chunks are the same from byte `n` on -/
def SameEnds (n : Nat) (as bs : List (Array Nat)) : Prop := ∀ i j, i < as.length → n ≤ j → gt (as.getD i #[]) j = gt (bs.getD i #[]) j

/-- memory for the chunks -/
structure Room {σ : Type} (k n size : Nat) (st : State σ) : Prop where
  d : st.d.length = k ∧ ∀ b ∈ st.d, b.size = size
  c : st.c.length = n ∧ ∀ b ∈ st.c, b.size = size
  r : st.r.length = k ∧ ∀ b ∈ st.r, b.size = size
  props : st.props.size = n

/-- What C71 asks of the benchmark with a code object in the state `s`: whatever the chunks, the generator and the coder's memory hold, and
whatever fragments are lost, each scenario ends well, with generated chunks that pass the check and, after decodings, the same chunks
decoded. -/
structure Passes (F : Coder) (sys : Bool) (m size : Nat) (s : F.σ) : Prop where
  encOnly : ∀ st : State F.σ, st.fec = s → Room F.n_data F.n_outputs size st → ∀ samples, ∃ st',
    enc_only F size samples st = .ok (true, st') ∧ Bench.check size st'.d = .ok true
  decOnly : ∀ st : State F.σ, st.fec = s → Room F.n_data F.n_outputs size st → ∀ shuffles, shuffles ≠ [] →
    (∀ l ∈ shuffles, Shuffles sys F.n_data (F.n_data + m) l) → ∃ st',
      dec_only F sys size shuffles st = .ok (true, st') ∧ Bench.check size st'.d = .ok true ∧ st'.r = st'.d
  encDec : ∀ st : State F.σ, st.fec = s → Room F.n_data F.n_outputs size st → ∀ shuffles, shuffles ≠ [] →
    (∀ l ∈ shuffles, Shuffles sys F.n_data (F.n_data + m) l) → ∃ st',
      enc_dec F sys size shuffles st = .ok (true, st') ∧ Bench.check size st'.d = .ok true ∧ st'.r = st'.d

/-- what C71 asks of the benchmark with a code used word by word, for chunks of `T` words: whatever uninitialised memory holds in each call -/
def PassesWords {Γ : Type} (E : Fec Γ) (w k n m : Nat) (sys : Bool) (T : Nat) : Prop :=
  E.base.n_data = k ∧ E.base.n_outputs = n ∧ ∀ mem mem' s, Passes (Coder.horizontal E mem mem') sys m (T * w) s

/-- A scenario that decodes into chunks that held `r`, with data `d`: it ends, the first `full` bytes of each chunk are decoded and the bytes after them are
left as they were, and it reports success if and only if these were those of the data. -/
def EndsDecide {σ : Type} (full : Nat) (d r : List (Array Nat)) (run : Res (Bool × State σ)) : Prop :=
  ∃ v st', run = .ok (v, st') ∧ st'.d = d ∧ (∀ i j, i < d.length → j < full → gt (st'.r.getD i #[]) j = gt (d.getD i #[]) j) ∧ SameEnds full st'.r r ∧
    (v = true ↔ SameEnds full r d)

/-- what the benchmark does with a code used word by word and chunks of `T` words and `x` bytes more -/
def LeavesEnds {Γ : Type} (E : Fec Γ) (w k n m : Nat) (sys : Bool) (T x : Nat) : Prop :=
  E.base.n_data = k ∧ E.base.n_outputs = n ∧ ∀ mem mem' (st : State (Coder.horizontal E mem mem').σ),
    Room k n (T * w + x) st → (∀ b ∈ st.r, Chunk (T * w + x) b) → ∃ d P, genAll (T * w + x) st.d st.prng = .ok (d, P) ∧
      (∀ samples, ∃ st', enc_only (Coder.horizontal E mem mem') (T * w + x) samples st = .ok (true, st') ∧ st'.d = d) ∧
      ∀ shuffles, shuffles ≠ [] → (∀ l ∈ shuffles, Shuffles sys k (k + m) l) →
        EndsDecide (T * w) d st.r (dec_only (Coder.horizontal E mem mem') sys (T * w + x) shuffles st) ∧
        EndsDecide (T * w) d st.r (enc_dec (Coder.horizontal E mem mem') sys (T * w + x) shuffles st)

end Quad.Spec
