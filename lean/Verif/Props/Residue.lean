import Verif.Props.Ring
import Verif.Props.BinExt
import Verif.Lemmas.Buffers
import Verif.Lemmas.FecGf2n

/-!
# C47: quadratic residues (src/gf_ring.h)
-/

namespace Quad.Props
open Quad Quad.RingModN Quad.Spec

theorem qrLoop_iff (F : GF) (q : Nat) : ∀ k i, F.qrLoop q k i = true ↔ ∃ x, i ≤ x ∧ x < i + k ∧ F.exp x 2 = q := by
  intro k
  induction k with
  | zero => intro i; simp only [GF.qrLoop, Bool.false_eq_true, false_iff]; rintro ⟨x, h1, h2, _⟩; omega
  | succ k ih =>
    intro i
    unfold GF.qrLoop
    by_cases h : F.exp i 2 = q
    · rw [if_pos h]
      exact ⟨fun _ => ⟨i, le_rfl, by omega, h⟩, fun _ => rfl⟩
    · rw [if_neg h, ih]
      constructor
      · rintro ⟨x, h1, h2, h3⟩; exact ⟨x, by omega, by omega, h3⟩
      · rintro ⟨x, h1, h2, h3⟩
        have : x ≠ i := fun e => h (e ▸ h3)
        exact ⟨x, by omega, by omega, h3⟩

/-- C47 in the integers modulo `card`, prime or not: the answer is true exactly for the reduced squares. -/
theorem C47_ring {O : Obj} (h : O.ring.Fits) (q : Nat) :
    O.gf.is_quadratic_residue q = true ↔ q < O.ring.card ∧ ∃ x, x * x % O.ring.card = q := by
  have hpos : 0 < O.ring.card := by have := h.pos; omega
  unfold GF.is_quadratic_residue
  rw [qrLoop_iff]
  constructor
  · rintro ⟨x, -, h2, h3⟩
    have h2 : x < O.ring.card := by simpa [RingModN.Obj.gf] using h2
    have h3 : O.ring.exp x 2 = q := h3
    rw [exp_eq h h2] at h3
    subst h3
    exact ⟨Nat.mod_lt _ hpos, x, by rw [pow_two]⟩
  · rintro ⟨_, x, rfl⟩
    have hx : x % O.ring.card < O.ring.card := Nat.mod_lt _ hpos
    refine ⟨x % O.ring.card, Nat.zero_le _, by simpa [RingModN.Obj.gf] using hx, ?_⟩
    show O.ring.exp _ 2 = _
    rw [exp_eq h hx, pow_two, ← Nat.mul_mod]

/-- C47 in a prime field: the answer is true exactly for the squares of the field, which for `q ≠ 0` and `p ≠ 2` is
Euler's criterion. -/
theorem C47_prime {O : Obj} {p : Nat} (H : IsPrimeField O p) {q : Nat} (hq : q < p) :
    (O.gf.is_quadratic_residue q = true ↔ IsSquare (q : ZMod p)) ∧
    (p ≠ 2 → q ≠ 0 → (O.gf.is_quadratic_residue q = true ↔ q ^ (p / 2) % p = 1)) := by
  haveI : Fact p.Prime := ⟨H.prime⟩
  have hc : O.ring.card = p := H.card
  have key : O.gf.is_quadratic_residue q = true ↔ IsSquare (q : ZMod p) := by
    rw [C47_ring H.fits, hc]
    constructor
    · rintro ⟨_, x, rfl⟩
      exact ⟨(x : ZMod p), by rw [ZMod.natCast_mod]; push_cast; rfl⟩
    · rintro ⟨y, hy⟩
      refine ⟨hq, y.val, ?_⟩
      have : ((y.val * y.val : Nat) : ZMod p) = (q : ZMod p) := by
        push_cast; rw [ZMod.natCast_zmod_val, hy]
      have := (ZMod.natCast_eq_natCast_iff' _ _ _).1 this
      rwa [Nat.mod_eq_of_lt hq] at this
  refine ⟨key, fun h2 h0 => ?_⟩
  rw [key, ZMod.euler_criterion p (by
    intro h
    have := (ZMod.natCast_eq_zero_iff q p).1 h
    exact h0 (Nat.eq_zero_of_dvd_of_lt this hq))]
  have hp2 := H.prime.two_le
  rw [show ((q : ZMod p) ^ (p / 2) = 1) ↔ ((q ^ (p / 2) : Nat) : ZMod p) = ((1 : Nat) : ZMod p) by push_cast; rfl,
    ZMod.natCast_eq_natCast_iff', Nat.mod_eq_of_lt (show 1 < p by omega)]

theorem restricted_iff {O : BinExt.Obj} {b n : Nat} (h : IsBinExt O b n) : O.F.restricted = true ↔ n = b := by
  haveI := h.fact
  obtain ⟨j, j3, e⟩ := h.built
  obtain ⟨F, e1, e2⟩ := bind_ok e
  unfold BinExt.init at e2
  obtain ⟨_, _, e2⟩ := bind_ok e2
  obtain ⟨_, _, e2⟩ := bind_ok e2
  cases e2
  unfold BinExt.mk' at e1
  obtain ⟨_, _, e1⟩ := bind_ok e1
  obtain ⟨_, _, e1⟩ := bind_ok e1
  obtain ⟨_, _, e1⟩ := bind_ok e1
  obtain ⟨_, _, e1⟩ := bind_ok e1
  have hr : F.restricted = decide (n / 8 = b / 8) := by
    simp only at e1
    split at e1
    · obtain ⟨_, _, e1⟩ := bind_ok e1
      cases e1; rfl
    · obtain ⟨_, _, e1⟩ := bind_ok e1
      cases e1; rfl
  show F.restricted = true ↔ _
  rw [hr, decide_eq_true_eq]
  have h1 := h.ok.size
  have h2 := h.ok.bytes
  have h3 := h.ok.room
  have h4 := h.ok.spare
  simp only [List.mem_cons, List.not_mem_nil, or_false] at h1
  omega

/-- C47 in a binary field: every element is a square; the answer is true for all, except, when the field has as many elements as
the word type, for the square of the last element. -/
theorem C47_binary_iff {O : BinExt.Obj} {b n : Nat} (h : IsBinExt O b n) {q : Nat} (hq : q < 2 ^ n) :
    (∃ x, x < 2 ^ n ∧ O.F.exp x 2 = q) ∧
    (O.gf.is_quadratic_residue q = true ↔ n ≠ b ∨ O.F.exp (2 ^ n - 1) 2 ≠ q) := by
  have hres := restricted_iff h
  haveI := h.fact
  set B := h.isBinField.2
  haveI := B.good.H.char
  have hF : B.sim.Full := B.full
  have hcard : O.gf.card = if n = b then 2 ^ n - 1 else 2 ^ n := by
    show O.F.my_card = _
    rw [B.good.cardE]
    by_cases hr : n = b
    · rw [if_pos (hres.2 hr), if_pos hr]
    · rw [if_neg (fun e => hr (hres.1 e)), if_neg hr]
  have hpos : 0 < 2 ^ n := by positivity
  have hV : ∀ a, B.sim.V a ↔ a < 2 ^ n := fun a => Iff.rfl
  let f : Fin (2 ^ n) → Fin (2 ^ n) := fun x => ⟨O.gf.exp x 2, (hV _).1 (B.sim.exp ((hV _).2 x.2)).1⟩
  have hinj : Function.Injective f := by
    intro x y e
    have e : O.gf.exp x 2 = O.gf.exp y 2 := congrArg Fin.val e
    have hx := B.sim.exp (e := 2) ((hV _).2 x.2)
    have hy := B.sim.exp (e := 2) ((hV _).2 y.2)
    have := congrArg B.sim.φ e
    rw [hx.2, hy.2] at this
    exact Fin.ext (hF.inj ((hV _).2 x.2) ((hV _).2 y.2) (CharTwo.sq_injective this))
  obtain ⟨x, hx⟩ := (Finite.injective_iff_surjective.1 hinj) ⟨q, hq⟩
  have hx2 := x.2
  have hxq : O.gf.exp x 2 = q := congrArg Fin.val hx
  refine ⟨⟨x, x.2, hxq⟩, ?_⟩
  unfold GF.is_quadratic_residue
  rw [qrLoop_iff, hcard]
  have hone : ∀ y, y < 2 ^ n → O.gf.exp y 2 = q → y = x := by
    intro y hy e
    exact congrArg Fin.val (hinj (a₁ := ⟨y, hy⟩) (a₂ := x) (by
      rw [hx]; exact Fin.ext e))
  constructor
  · rintro ⟨y, -, h2, h3⟩
    by_cases hb : n = b
    · rw [if_pos hb] at h2
      refine Or.inr fun e => ?_
      have := hone _ (by omega) e
      have := hone y (by omega) h3
      omega
    · exact Or.inl hb
  · rintro (hb | he)
    · rw [if_neg hb]
      exact ⟨x, Nat.zero_le _, by omega, hxq⟩
    · have hne : x.1 ≠ 2 ^ n - 1 := by
        intro e
        rw [e] at hxq
        exact he hxq
      refine ⟨x, Nat.zero_le _, ?_, hxq⟩
      split <;> omega

/-- C47 in a binary field with room to spare in the word type: every element is a square and the answer is always true.  Missing:
fields that fill the word type, for which the property is false (`C47_binary_last`). -/
theorem C47_binary_partial {O : BinExt.Obj} {b n : Nat} (h : IsBinExt O b n) (hb : n < b) {q : Nat} (hq : q < 2 ^ n) :
    O.gf.is_quadratic_residue q = true :=
  (C47_binary_iff h hq).2.2 (Or.inl (by omega))

/-- C47 fails in a binary field that fills the word type, such as GF(2^32) on `uint32_t`: the loop leaves the last element out, and the
answer for its square is false. -/
theorem C47_binary_last {O : BinExt.Obj} {n : Nat} (h : IsBinExt O n n) :
    ∃ q, q < 2 ^ n ∧ (∃ x, x < 2 ^ n ∧ O.F.exp x 2 = q) ∧ O.gf.is_quadratic_residue q = false := by
  have hpos : 0 < 2 ^ n := by positivity
  have hl := (C14_exp h (a := 2 ^ n - 1) (by omega) 2).1
  refine ⟨_, hl, ⟨_, by omega, rfl⟩, ?_⟩
  rw [← Bool.not_eq_true, (C47_binary_iff h hl).2]
  simp

example : (∃ O, IsBinExt O 32 32) ∧ ∃ O, IsBinExt O 32 8 := by
  constructor
  · obtain ⟨O, _, h⟩ := C14_create_partial (b := 32) (n := 32) ⟨by decide, by decide, by decide, by decide⟩ (fun _ _ => 0) (fun _ _ _ => 0)
    exact ⟨O, h⟩
  · obtain ⟨O, _, h⟩ := C14_create_partial (b := 32) (n := 8) ⟨by decide, by decide, by decide, by decide⟩ (fun _ _ => 0) (fun _ _ _ => 0)
    exact ⟨O, h⟩

/-- 7 is no square modulo 257 and 4 is one; every word of GF(2^8) is a square -/
example : O257.gf.is_quadratic_residue 4 = true ∧ O257.gf.is_quadratic_residue 7 = false := by
  have h := isPrimeField257
  refine ⟨((C47_prime h (by norm_num)).2 (by norm_num) (by norm_num)).2 (by norm_num), ?_⟩
  rw [← Bool.not_eq_true, (C47_prime h (by norm_num)).2 (by norm_num) (by norm_num)]
  norm_num

end Quad.Props
