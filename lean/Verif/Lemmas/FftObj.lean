import Verif.Spec.Dft
import Verif.Lemmas.FftGt
import Verif.Lemmas.FftLarge
import Verif.Lemmas.MatApi
import Verif.Lemmas.BinSpec

/-!
# The transforms on the field objects of the library
-/

namespace Quad
open Finset Quad.Spec

/-! ## The fields -/

theorem primeDft {O : RingModN.Obj} {p : Nat} [Fact p.Prime] (H : RingModN.IsPrimeField O p) : DftField O.gf O.ring.b p H.sim := by
  have h2 := H.prime.two_le
  refine ⟨H.full, fun _ => Iff.rfl, h2, ?_, ?_, H.even, ?_, ?_⟩
  · intro n hn
    obtain ⟨w, e, h1, h3⟩ := H.get_nth_root_spec n
    rw [Nat.gcd_eq_left hn] at h3
    exact ⟨w, e, h1, h3⟩
  · intro n hn
    have hn0 : 0 < n := Nat.pos_of_dvd_of_pos hn (by omega)
    have hlt : n < p := by have := Nat.le_of_dvd (by omega) hn; omega
    obtain ⟨v, e, h1, h3⟩ := H.invN_spec hn0 hlt
    have hne : (n : ZMod p) ≠ 0 := by
      intro h
      rw [ZMod.natCast_eq_zero_iff] at h
      have := Nat.le_of_dvd hn0 h
      omega
    refine ⟨v, e, fun hv => ?_, fun _ => ⟨h1, ?_⟩⟩
    · obtain rfl | rfl : v = 0 ∨ v = 1 := by omega
      · rw [Nat.cast_zero, eq_comm, inv_eq_zero] at h3; exact absurd h3 hne
      · rw [Nat.cast_one, eq_comm, inv_eq_one] at h3; exact h3
    · show ((v : Nat) : ZMod p) * _ = 1
      rw [h3, inv_mul_cancel₀ hne]
  · by_contra h0
    have hb : O.ring.b = 0 := by omega
    have h3 := H.fits.spare
    rw [hb, H.card] at h3
    omega
  · have h3 := H.fits.spare
    rw [H.card] at h3
    omega

theorem binDft {O : BinExt.Obj} {b n : Nat} (h : IsBinExt O b n) :
    haveI := h.fact
    DftField O.gf b (2 ^ n) h.isBinField.2.sim := by
  haveI := h.fact
  have B := h.isBinField.2
  have hpos := B.good.H.two_pow_pos
  have hch := B.good.H.char
  refine ⟨B.full, fun _ => Iff.rfl, by omega, ?_, ?_, ?_, ?_, Nat.pow_le_pow_right (by omega) h.ok.room⟩
  · intro m hm
    obtain ⟨w, e, h1, h2⟩ := B.get_nth_root_spec m
    rw [Nat.gcd_eq_left hm] at h2
    exact ⟨w, e, h1, h2⟩
  · intro m hm
    have hm0 : 0 < m := Nat.pos_of_dvd_of_pos hm (by omega)
    have hlt : m < 2 ^ n := by have := Nat.le_of_dvd (by omega) hm; omega
    obtain ⟨i, e, _⟩ := B.good.invS (by omega) hlt
    refine ⟨i % 2, ?_, fun _ => ?_, fun hv => by omega⟩
    · show O.get_inv_n_mod_p m = _
      unfold BinExt.Obj.get_inv_n_mod_p
      rw [e]; rfl
    · have hn0 : n ≠ 0 := by rintro rfl; simp at hpos
      have hodd : Odd m := by
        by_contra c
        rw [Nat.not_odd_iff_even] at c
        have h2 : 2 ∣ 2 ^ n - 1 := c.two_dvd.trans hm
        have h3 : 2 ∣ 2 ^ n := dvd_pow_self 2 hn0
        omega
      obtain ⟨k, rfl⟩ := hodd
      have h2 : (2 : BinK n) = 0 := CharTwo.two_eq_zero
      rw [Nat.cast_add, Nat.cast_mul, Nat.cast_ofNat, Nat.cast_one, h2, zero_mul, zero_add]
  · have := h.ok.bytes; omega
  · have := h.ok.size
    have := h.ok.room
    by_contra h0
    have hb : b = 0 := by omega
    have : n = 0 := by omega
    subst this
    simp at hpos

theorem Spec.FieldObj.plain {F : GF} {b q : Nat} (h : FieldObj F b q) : F.Plain := by
  cases h <;> infer_instance

theorem Spec.FieldObj.dft {F : GF} {b q : Nat} (h : FieldObj F b q) :
    ∃ (K : Type) (_ : Field K) (S : F.Sim K), DftField F b q S := by
  cases h with
  | prime H =>
    haveI := Fact.mk H.prime
    exact ⟨_, inferInstance, _, primeDft H⟩
  | bin H =>
    haveI := H.fact
    exact ⟨_, inferInstance, _, binDft H⟩

/-! ## Vectors -/

variable {F : GF} [F.Plain] {K : Type} [Field K] {S : F.Sim K} {b q : Nat}

theorem dftAt_sem {w : Nat} (hw : S.V w) {x : Array Nat} (hx : ∀ j, j < x.size → S.V (gt x j)) (i : Nat) :
    S.V (dftAt F w x i) ∧ S.φ (dftAt F w x i) = ∑ j ∈ range x.size, S.φ w ^ (i * j) * S.φ (gt x j) := by
  unfold dftAt
  have key : ∀ m, m ≤ x.size → S.V ((List.range m).foldl (fun acc j => F.add acc (F.mul (F.exp w (i * j)) (gt x j))) 0) ∧
      S.φ ((List.range m).foldl (fun acc j => F.add acc (F.mul (F.exp w (i * j)) (gt x j))) 0)
        = ∑ j ∈ range m, S.φ w ^ (i * j) * S.φ (gt x j) := by
    intro m
    induction m with
    | zero => intro _; exact ⟨S.zero.1, by simpa using S.zero.2⟩
    | succ m ih =>
      intro hm
      obtain ⟨h1, h2⟩ := ih (by omega)
      rw [List.range_succ, List.foldl_append]
      simp only [List.foldl_cons, List.foldl_nil]
      have e := S.exp (e := i * m) hw
      have mu := S.mul e.1 (hx m (by omega))
      have a := S.add h1 mu.1
      exact ⟨a.1, by rw [a.2, h2, mu.2, e.2, sum_range_succ]⟩
  exact key _ le_rfl

theorem IsDft.eq_dftVec (D : DftField F b q S) {f : Array Nat → Array Nat → Res (Array Nat)} {n w : Nat} (hw : S.V w)
    (hf : IsDft S f n (S.φ w)) {out x : Array Nat} (ho : out.size = n) (hx : IsVec q n x) :
    f out x = .ok (dftVec F w x) ∧ IsVec q n (dftVec F w x) := by
  have hv : ∀ j, j < n → S.V (gt x j) := fun j hj => (D.val _).2 (hx.2 j hj)
  obtain ⟨r, e, h1, h2⟩ := hf out x ho hx.1 hv
  have hr : r = dftVec F w x := by
    refine gt_ext (by simp [dftVec, h1, hx.1]) fun i hi => ?_
    rw [h1] at hi
    have hi' : i < x.size := by rw [hx.1]; exact hi
    have d := dftAt_sem hw (x := x) (fun j hj => hv j (by rw [hx.1] at hj; exact hj)) i
    unfold dftVec
    rw [gt_ofFn hi']
    exact D.full.inj (h2 i hi).1 d.1 (by rw [(h2 i hi).2, d.2, hx.1])
  subst hr
  exact ⟨e, h1, fun j hj => (D.val _).1 (h2 j hj).1⟩

theorem hasOrder_of (D : DftField F b q S) {w n : Nat} (hw : S.V w) (h : IsPrimitiveRoot (S.φ w) n) : HasOrder F w n := by
  have e1 : ∀ j, F.exp w j = 1 ↔ S.φ w ^ j = 1 := by
    intro j
    have e := S.exp (e := j) hw
    constructor
    · intro h1
      rw [← e.2, h1]; exact D.full.v1.2
    · intro h1
      exact D.full.inj e.1 D.full.v1.1 (by rw [e.2, h1]; exact D.full.v1.2.symm)
  exact ⟨(e1 n).2 h.pow_eq_one, fun j h0 hj c => h.pow_ne_one_of_pos_of_lt (by omega) hj ((e1 j).1 c)⟩

theorem primitive_of (D : DftField F b q S) {w n : Nat} (hw : S.V w) (hn : 0 < n) (h : HasOrder F w n) : IsPrimitiveRoot (S.φ w) n := by
  have e1 : ∀ j, F.exp w j = 1 ↔ S.φ w ^ j = 1 := by
    intro j
    have e := S.exp (e := j) hw
    constructor
    · intro h1
      rw [← e.2, h1]; exact D.full.v1.2
    · intro h1
      exact D.full.inj e.1 D.full.v1.1 (by rw [e.2, h1]; exact D.full.v1.2.symm)
  refine IsPrimitiveRoot.mk_of_lt _ hn ((e1 n).1 h.1) fun l h0 hl c => h.2 l h0 hl ((e1 l).2 c)

end Quad
