import Verif.Lemmas.MatCode
import Verif.Lemmas.FecGf2n
import Verif.Lemmas.Fft2nPrime
import Verif.Spec.Matrix

/-!
# `inv` and `mul` as functions of the API
-/

namespace Quad.Mat
open Quad Quad.Spec Finset

variable {K : Type} [Field K] {F : GF} [F.Plain] {S : F.Sim K} {M : Mat}

theorem _root_.Quad.Spec.MatOk.is {R C q : Nat} (h : MatOk M R C q) : Is M R C (fun i j => gt M.mem (i * C + j)) :=
  ⟨h.rows, h.cols, h.size, fun _ _ _ _ => rfl⟩

theorem Is.matOk {R C q : Nat} {f : Nat → Nat → Nat} (h : Is M R C f) (hv : ∀ i j, i < R → j < C → f i j < q) : MatOk M R C q := by
  refine ⟨h.rows, h.cols, h.size, fun t ht => ?_⟩
  have hC : 0 < C := by
    rcases Nat.eq_zero_or_pos C with h0 | h0
    · subst h0; simp at ht
    · exact h0
  have h1 : t / C < R := Nat.div_lt_of_lt_mul (by rwa [Nat.mul_comm])
  have h2 := h.ent (t / C) (t % C) h1 (Nat.mod_lt _ hC)
  rw [Nat.div_add_mod' t C] at h2
  rw [h2]
  exact hv _ _ h1 (Nat.mod_lt _ hC)

/-- a matrix and its left inverse -/
theorem undoes {n q : Nat} (H : S.Full) (hV : ∀ a, S.V a ↔ a < q) (hn : 0 < n) {A B : Mat} {f g : Nat → Nat → Nat} (hA : Is A n n f)
    (hB : Is B n n g) (vA : ∀ i j, i < n → j < n → S.V (f i j)) (vB : ∀ i j, i < n → j < n → S.V (g i j))
    (e : toM S n g * toM S n f = 1) : Undoes F B A n q := by
  intro v out out' hv ho ho'
  obtain ⟨u, e1, s1, h1⟩ := mul_sem hA hn vA hv.size ho (fun j hj => (hV _).mpr (hv.lt j hj))
  obtain ⟨x, e2, s2, h2⟩ := mul_sem hB hn vB (v := u) s1 ho' (fun j hj => (h1 j hj).1)
  refine ⟨u, e1, ?_⟩
  rw [e2]
  congr 1
  apply gt_ext (by rw [s2, hv.size])
  intro i hi
  rw [s2] at hi
  refine H.inj (h2 i hi).1 ((hV _).mpr (hv.lt i hi)) ?_
  rw [(h2 i hi).2]
  have hx := congrFun (congrArg (fun M => Matrix.mulVec M (fun j : Fin n => S.φ (gt v j))) e) ⟨i, hi⟩
  simp only [Matrix.one_mulVec] at hx
  rw [← hx, ← Matrix.mulVec_mulVec, Matrix.mulVec, dotProduct,
    ← Fin.sum_univ_eq_sum_range (fun j => S.φ (g i j) * S.φ (gt u j))]
  refine sum_congr rfl fun j _ => ?_
  rw [(h1 j j.2).2, Matrix.mulVec, dotProduct, ← Fin.sum_univ_eq_sum_range (fun l => S.φ (f j l) * S.φ (gt v l))]
  rfl

theorem singular {n q : Nat} (H : S.Full) (hV : ∀ a, S.V a ↔ a < q) (hn : 0 < n) (hsur : ∀ z : K, ∃ a, S.V a ∧ S.φ a = z)
    {f : Nat → Nat → Nat} (hM : Is M n n f) (vM : ∀ i j, i < n → j < n → S.V (f i j)) (hu : ¬ IsUnit (toM S n f).det) :
    Singular F M n q := by
  have hdet : (toM S n f).det = 0 := by
    by_contra c
    exact hu (isUnit_iff_ne_zero.mpr c)
  obtain ⟨z, hz, hz2⟩ := Matrix.exists_mulVec_eq_zero_iff.mpr hdet
  choose l hl1 hl2 using hsur
  let v : Array Nat := Array.ofFn (fun i : Fin n => l (z i))
  have hgt : ∀ i : Fin n, gt v i = l (z i) := fun i => by
    simp only [v]; rw [gt_ofFn i.2]
  have hvs : v.size = n := by simp [v]
  have hvV : ∀ j, j < n → S.V (gt v j) := fun j hj => by
    have := hgt ⟨j, hj⟩
    simp only at this
    rw [this]; exact hl1 _
  refine ⟨v, ⟨hvs, fun i hi => (hV _).mp (hvV i hi)⟩, ?_, ?_⟩
  · intro h0
    apply hz
    funext i
    have := hl2 (z i)
    rw [← hgt i, h0, gt_replicate i.2, S.zero.2] at this
    exact this.symm
  · intro out ho
    obtain ⟨u, e1, s1, h1⟩ := mul_sem hM hn vM hvs ho hvV
    rw [e1]
    congr 1
    apply gt_ext (by simp [s1])
    intro i hi
    rw [s1] at hi
    rw [gt_replicate hi]
    refine H.inj (h1 i hi).1 S.zero.1 ?_
    rw [(h1 i hi).2, S.zero.2]
    have hx := congrFun hz2 ⟨i, hi⟩
    rw [Matrix.mulVec, dotProduct] at hx
    rw [← Fin.sum_univ_eq_sum_range (fun j => S.φ (f i j) * S.φ (gt v j)), ← show _ = (0 : K) from hx]
    refine sum_congr rfl fun j _ => ?_
    rw [hgt j, hl2]
    rfl

theorem not_unit {n q : Nat} (H : S.Full) (hV : ∀ a, S.V a ↔ a < q) (hn : 0 < n)
    {f : Nat → Nat → Nat} (hM : Is M n n f) (vM : ∀ i j, i < n → j < n → S.V (f i j)) (hs : Singular F M n q) :
    ¬ IsUnit (toM S n f).det := by
  obtain ⟨v, hv, hne, hz⟩ := hs
  intro hu
  obtain ⟨u, e1, s1, h1⟩ := mul_sem hM hn vM hv.size (out := Array.replicate n 0) (by simp) (fun j hj => (hV _).mpr (hv.lt j hj))
  rw [hz _ (by simp)] at e1
  cases e1
  have hk : (toM S n f).mulVec (fun j : Fin n => S.φ (gt v j)) = 0 := by
    funext i
    have := (h1 i i.2).2
    rw [gt_replicate i.2, S.zero.2, ← Fin.sum_univ_eq_sum_range (fun j => S.φ (f i j) * S.φ (gt v j))] at this
    exact this.symm
  have := congrArg (Matrix.mulVec (toM S n f)⁻¹) hk
  rw [Matrix.mulVec_mulVec, Matrix.nonsing_inv_mul _ hu, Matrix.one_mulVec, Matrix.mulVec_zero] at this
  apply hne
  apply gt_ext (by simp [hv.size])
  intro i hi
  rw [hv.size] at hi
  rw [gt_replicate hi]
  exact (H.eq_zero ((hV _).mpr (hv.lt i hi))).mp (congrFun this ⟨i, hi⟩)

theorem inv_api {n q : Nat} (H : S.Full) (hV : ∀ a, S.V a ↔ a < q) (hn : 0 < n) (hsur : ∀ z : K, ∃ a, S.V a ∧ S.φ a = z)
    (hM : MatOk M n n q) (mem : Nat → Nat) :
    (¬ Singular F M n q → ∃ M', Mat.inv F M mem = .ok M' ∧ MatOk M' n n q ∧ Undoes F M' M n q ∧ Undoes F M M' n q) ∧
    (Singular F M n q → Mat.inv F M mem = .error (.throws .domainError)) := by
  have hv : ∀ i j, i < n → j < n → S.V (gt M.mem (i * n + j)) := fun i j hi hj => (hV _).mpr (hM.lt _ (idx_lt hi hj))
  obtain ⟨h1, h2⟩ := inv_spec H hM.is hv mem
  refine ⟨fun hs => ?_, fun hs => h2 (not_unit H hV hn hM.is hv hs)⟩
  have hu : IsUnit (toM S n (fun i j => gt M.mem (i * n + j))).det := by
    by_contra c
    exact hs (singular H hV hn hsur hM.is hv c)
  obtain ⟨M', f', e, i1, v1, e1⟩ := h1 hu
  refine ⟨M', e, i1.matOk fun i j hi hj => (hV _).mp (v1 i j hi hj), ?_, ?_⟩
  · exact undoes H hV hn hM.is i1 hv v1 (by rw [e1]; exact Matrix.nonsing_inv_mul _ hu)
  · exact undoes H hV hn i1 hM.is v1 hv (by rw [e1]; exact Matrix.mul_nonsing_inv _ hu)

end Quad.Mat

namespace Quad.RingModN.IsPrimeField
variable {O : Obj} {p : Nat} [Fact p.Prime]

theorem full (H : IsPrimeField O p) : H.sim.Full := by
  refine ⟨?_, ?_, fun _ h => h, fun _ _ => rfl, fun _ _ => rfl⟩
  · intro a c ha hc e
    exact (ZMod.natCast_eq_natCast_iff' a c p).mp e |> fun h => by
      rwa [Nat.mod_eq_of_lt ha, Nat.mod_eq_of_lt hc] at h
  · rfl

theorem surj (H : IsPrimeField O p) (z : ZMod p) : ∃ a, H.sim.V a ∧ H.sim.φ a = z :=
  ⟨z.val, ZMod.val_lt z, ZMod.natCast_zmod_val z⟩

end Quad.RingModN.IsPrimeField
