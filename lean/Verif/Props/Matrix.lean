import Verif.Lemmas.MatApi
import Verif.Props.Fft2n

/-!
# Matrices (C29)

Over the prime fields (`IsPrimeField O p`) and the binary extension fields (`IsBinExt O b n`) the library builds.
`mem` are the contents of the memory the temporary matrix is allocated in.
-/

namespace Quad.Props
open Quad Quad.Spec RingModN Finset Mat Polynomial

/-- C29: over a prime field `inv` gives the inverse matrix when no nonzero vector is mapped to zero,
and throws `DomainError` otherwise. -/
theorem C29_inv_prime {O : Obj} {p n : Nat} (H : IsPrimeField O p) (hn : 0 < n) {M : Mat} (hM : MatOk M n n p)
    (mem : Nat → Nat) :
    (¬ Singular O.gf M n p → ∃ M', Mat.inv O.gf M mem = .ok M' ∧ MatOk M' n n p ∧ Undoes O.gf M' M n p ∧ Undoes O.gf M M' n p) ∧
    (Singular O.gf M n p → Mat.inv O.gf M mem = .error (.throws .domainError)) := by
  haveI : Fact p.Prime := ⟨H.prime⟩
  exact inv_api H.full (fun _ => Iff.rfl) hn H.surj hM mem

/-- C29: over a binary extension field `inv` gives the inverse matrix when no nonzero vector is mapped to
zero, and throws `DomainError` otherwise. -/
theorem C29_inv_binary {O : BinExt.Obj} {b e n : Nat} (H : IsBinExt O b e) (hn : 0 < n) {M : Mat} (hM : MatOk M n n (2 ^ e))
    (mem : Nat → Nat) :
    (¬ Singular O.gf M n (2 ^ e) → ∃ M', Mat.inv O.gf M mem = .ok M' ∧ MatOk M' n n (2 ^ e) ∧ Undoes O.gf M' M n (2 ^ e) ∧
      Undoes O.gf M M' n (2 ^ e)) ∧
    (Singular O.gf M n (2 ^ e) → Mat.inv O.gf M mem = .error (.throws .domainError)) := by
  haveI := H.fact
  have B := H.isBinField.2
  exact inv_api B.full (fun _ => Iff.rfl) hn (fun z => B.good.H.surj z) hM mem

/-- C29: over a prime field `mul` is the product of the matrix and the vector. -/
theorem C29_mul_prime {O : Obj} {p R C : Nat} (H : IsPrimeField O p) (hC : 0 < C) {M : Mat} (hM : MatOk M R C p) {v out : Array Nat}
    (hv : VecOk v C p) (ho : out.size = R) :
    ∃ u, M.mul O.gf out v = .ok u ∧ u.size = R ∧ ∀ i, i < R → gt u i = (∑ j ∈ range C, gt M.mem (i * C + j) * gt v j) % p := by
  haveI : Fact p.Prime := ⟨H.prime⟩
  obtain ⟨u, e, s, h⟩ := mul_sem (S := H.sim) hM.is hC (fun i j hi hj => hM.lt _ (Mat.idx_lt hi hj)) hv.size ho hv.lt
  refine ⟨u, e, s, fun i hi => ?_⟩
  obtain ⟨h1, h2⟩ := h i hi
  have h3 : ((gt u i : Nat) : ZMod p) = ((∑ j ∈ range C, gt M.mem (i * C + j) * gt v j : Nat) : ZMod p) := by
    rw [Nat.cast_sum]
    refine h2.trans (sum_congr rfl fun j _ => ?_)
    rw [Nat.cast_mul]
    rfl
  have := (ZMod.natCast_eq_natCast_iff' _ _ p).mp h3
  rwa [Nat.mod_eq_of_lt h1] at this

/-- C29: over a binary extension field `mul` is the product of the matrix and the vector. -/
theorem C29_mul_binary {O : BinExt.Obj} {b e R C : Nat} (H : IsBinExt O b e) (hC : 0 < C) {M : Mat} (hM : MatOk M R C (2 ^ e))
    {v out : Array Nat} (hv : VecOk v C (2 ^ e)) (ho : out.size = R) :
    ∃ u, M.mul O.gf out v = .ok u ∧ u.size = R ∧ ∀ i, i < R → gt u i < 2 ^ e ∧
      binWord e (gt u i) = (∑ j ∈ range C, binWord e (gt M.mem (i * C + j)) * binWord e (gt v j)) %ₘ binModulus e := by
  haveI := H.fact
  have B := H.isBinField.2
  obtain ⟨u, e', s, h⟩ := mul_sem (S := B.sim) hM.is hC (fun i j hi hj => hM.lt _ (Mat.idx_lt hi hj)) hv.size ho hv.lt
  refine ⟨u, e', s, fun i hi => ?_⟩
  obtain ⟨h1, h2⟩ := h i hi
  refine ⟨h1, mod_of_root (size_of H.ok.size) h1 ?_⟩
  rw [map_sum]
  refine h2.trans (sum_congr rfl fun j hj => ?_)
  rw [map_mul, ← root_eq_mk (hM.lt _ (Mat.idx_lt hi (mem_range.mp hj))), ← root_eq_mk (hv.lt _ (mem_range.mp hj))]
  rfl

/-! ### the hypotheses are met, and both outcomes occur -/

example : MatOk ⟨2, 2, #[1, 2, 3, 4]⟩ 2 2 257 ∧ VecOk #[5, 256] 2 257 := ⟨⟨rfl, rfl, rfl, by decide⟩, ⟨rfl, by decide⟩⟩

example : Mat.inv O257.gf ⟨2, 2, #[1, 2, 2, 4]⟩ (fun _ => 9) = .error (.throws .domainError) := by decide +kernel

example : Mat.inv O257.gf ⟨2, 2, #[0, 2, 1, 0]⟩ (fun _ => 9) = .ok ⟨2, 2, #[0, 1, 129, 0]⟩ := by decide +kernel

end Quad.Props
