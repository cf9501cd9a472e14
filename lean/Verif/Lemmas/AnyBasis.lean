import Mathlib.Algebra.Polynomial.Monic
import Mathlib.Algebra.Polynomial.BigOperators
import Mathlib.Tactic.ComputeDegree
import Verif.Lemmas.FftAdd

/-!
# The additive FFT on elements that need not be a basis

The transform returns, and takes sums to sums, even if its elements are not independent and the result is not an evaluation at different points.
-/

namespace Quad
namespace Additive
open Finset Polynomial
variable {K : Type} [Field K]

theorem tPoly_add_fun (t : Nat) (c c' : Nat → K) (n : Nat) : tPoly t (fun i => c i + c' i) n = tPoly t c n + tPoly t c' n := by
  unfold tPoly
  rw [← sum_add_distrib]
  exact sum_congr rfl fun i _ => by rw [C_add]; ring

theorem cPoly_add_fun (c c' : Nat → K) (n : Nat) : cPoly (fun i => c i + c' i) n = cPoly c n + cPoly c' n := by
  unfold cPoly
  rw [← sum_add_distrib]
  exact sum_congr rfl fun i _ => by rw [C_add]; ring

theorem tBase_monic (i : Nat) : (X ^ (i % 2) * (X ^ 2 - X) ^ (i / 2) : K[X]).Monic ∧ (X ^ (i % 2) * (X ^ 2 - X) ^ (i / 2) : K[X]).natDegree = i := by
  have h2 : (X ^ 2 - X : K[X]).Monic := by
    monicity!
  have d2 : (X ^ 2 - X : K[X]).natDegree = 2 := by compute_degree!
  have hm := (monic_X_pow (R := K) (i % 2)).mul (h2.pow (i / 2))
  refine ⟨hm, ?_⟩
  rw [(monic_X_pow (R := K) (i % 2)).natDegree_mul (h2.pow _), h2.natDegree_pow, natDegree_X_pow, d2]
  omega

theorem tPoly_degree (c : Nat → K) (n : Nat) : (tPoly 2 c n).degree < n := by
  unfold tPoly
  refine (degree_sum_le _ _).trans_lt ?_
  rw [Finset.sup_lt_iff (by exact WithBot.bot_lt_coe n)]
  intro i hi
  rw [mul_assoc]
  refine (degree_le_natDegree.trans (Nat.cast_le.2 (natDegree_C_mul_le _ _))).trans_lt ?_
  rw [(tBase_monic i).2]
  exact_mod_cast mem_range.1 hi

theorem tPoly_zero {c : Nat → K} : ∀ {n : Nat}, tPoly 2 c n = 0 → ∀ i, i < n → c i = 0
  | 0, _, i, hi => by omega
  | n + 1, h, i, hi => by
    have e : tPoly 2 c (n + 1) = tPoly 2 c n + C (c n) * (X ^ (n % 2) * (X ^ 2 - X) ^ (n / 2)) := by
      unfold tPoly; rw [sum_range_succ, mul_assoc]
    have hn : c n = 0 := by
      have := congrArg (fun p => coeff p n) (e.symm.trans h)
      simp only [coeff_add, coeff_C_mul, coeff_zero, coeff_eq_zero_of_degree_lt (tPoly_degree c n), zero_add] at this
      have h1 : (X ^ (n % 2) * (X ^ 2 - X) ^ (n / 2) : K[X]).coeff n = 1 := by
        have := (tBase_monic (K := K) n).1
        unfold Monic leadingCoeff at this
        rwa [(tBase_monic n).2] at this
      rwa [h1, mul_one] at this
    rcases Nat.lt_succ_iff_lt_or_eq.1 hi with h' | rfl
    · rw [hn, C_0, zero_mul, add_zero] at e
      exact tPoly_zero (e.symm.trans h) i h'
    · exact hn

theorem tPoly_sum_inj [CharP K 2] {c c' c'' : Nat → K} {n : Nat} (h : tPoly 2 c'' n = tPoly 2 c n + tPoly 2 c' n) (i : Nat) (hi : i < n) : c'' i = c i + c' i := by
  have : tPoly 2 (fun i => c'' i + (c i + c' i)) n = 0 := by
    rw [tPoly_add_fun, tPoly_add_fun, h, CharTwo.add_self_eq_zero]
  have := tPoly_zero this i hi
  rw [← sub_eq_zero, CharTwo.sub_eq_add]
  exact this

variable {F : GF} [F.Plain] {S : F.Sim K}

/-- `Ls` is a chain of objects with elements of the field, whatever they are -/
def WChain (S : F.Sim K) : List Level → Nat → Prop
  | L :: Ls, m => L.m = m + 1 ∧ L.n = 2 ^ (m + 1) ∧ L.m_k = 2 ^ m ∧ S.V L.beta_1 ∧ L.beta_m_powers.size = 2 ^ (m + 1) ∧
      (∀ i, i < 2 ^ (m + 1) → S.V (gt L.beta_m_powers i)) ∧
      match m with
      | 0 => True
      | m' + 1 => L.G.size = 2 ^ (m' + 1) ∧ (∀ i, i < 2 ^ (m' + 1) → S.V (gt L.G i)) ∧ WChain S Ls m'
  | [], _ => False

/-- one level of the transform, on any chain of objects -/
theorem fft_step [CharP K 2] {b m : Nat} (mem : Nat → Nat) {L : Level} {Ls : List Level} {output input : Array Nat} (hC : WChain S (L :: Ls) (m + 1))
    (hb : m + 1 + 1 ≤ b) (ho : output.size = 2 ^ (m + 1 + 1)) (hi : input.size = 2 ^ (m + 1 + 1)) (hV : AllV S input) :
    ∃ g0 g1, g0.size = 2 ^ (m + 1) ∧ g1.size = 2 ^ (m + 1) ∧ AllV S g0 ∧ AllV S g1 ∧
      tPoly 2 (fun i => S.φ (il g0 g1 i)) (2 ^ (m + 1 + 1)) =
        cPoly (fun j => S.φ (gt input j) * (if L.beta_m > 1 then S.φ (gt L.beta_m_powers j) else 1)) (2 ^ (m + 1 + 1)) ∧
      ∀ u v, fft F b mem Ls (fresh mem (2 ^ (m + 1))) g0 = .ok u → fft F b mem Ls (fresh mem (2 ^ (m + 1))) g1 = .ok v → u.size = 2 ^ (m + 1) →
        v.size = 2 ^ (m + 1) → AllV S u → AllV S v →
        ∃ r, fft F b mem (L :: Ls) output input = .ok r ∧ r.size = 2 ^ (m + 1 + 1) ∧ AllV S r ∧ ∀ i, i < 2 ^ (m + 1) →
          S.φ (gt r i) = S.φ (gt v i) * S.φ (gt L.G i) + S.φ (gt u i) ∧
          S.φ (gt r (i + 2 ^ (m + 1))) = S.φ (gt v i) + (S.φ (gt v i) * S.φ (gt L.G i) + S.φ (gt u i)) := by
  unfold WChain at hC
  obtain ⟨c1, c2, c3, c4, c10, c11, c12, c13, c14⟩ := hC
  have hp1 : 2 ^ (m + 1 + 1) = 2 * 2 ^ (m + 1) := pow_succ' 2 _
  have hpos : 0 < 2 ^ (m + 1) := by positivity
  obtain ⟨w0, ew0, sw0, gw0⟩ := vecCopy_spec (a := fresh mem L.n) (v := input) (n := L.n) (dst := 0) (src := 0) (by simp)
  rw [fresh_size, c2] at sw0
  have gw0' : ∀ j, gt w0 j = gt input j := by
    intro j
    by_cases hj : j < 2 ^ (m + 1 + 1)
    · rw [gw0, if_pos ⟨by omega, by omega⟩]; congr 1; omega
    · rw [gt_oob (by omega), gt_oob (by omega)]
  have hw : ∃ w, (if L.beta_m > 1 then hadamardMul F w0 L.beta_m_powers else pure w0) = .ok w ∧ w.size = 2 ^ (m + 1 + 1) ∧ AllV S w ∧
      ∀ j, j < 2 ^ (m + 1 + 1) → S.φ (gt w j) = S.φ (gt input j) * (if L.beta_m > 1 then S.φ (gt L.beta_m_powers j) else 1) := by
    by_cases h1 : L.beta_m > 1
    · rw [if_pos h1]
      obtain ⟨w, ew, sw, hw⟩ := hadamardMul_spec (S := S) (a := w0) (v := L.beta_m_powers) (by omega) (fun j _ => by rw [gw0']; exact hV j)
        (fun j hj => c11 j (by omega))
      refine ⟨w, ew, by omega, fun j => ?_, fun j hj => ?_⟩
      · by_cases hj : j < w0.size
        · exact (hw j hj).1
        · rw [gt_oob (by omega)]; exact S.zero.1
      · rw [(hw j (by omega)).2, gw0', if_pos h1]
    · rw [if_neg h1]
      refine ⟨w0, rfl, sw0, fun j => by rw [gw0']; exact hV j, fun j _ => ?_⟩
      rw [gw0', if_neg h1, mul_one]
  obtain ⟨w, ew, sw, vw, pw⟩ := hw
  obtain ⟨w', g0, g1, et, s0, s1, vg, pg⟩ := taylor_expand_t2_spec (F := F) (S := S) (b := b) (e := m + 1 + 1) (g0 := fresh mem L.m_k)
    (g1 := fresh mem L.m_k) (input := w) sw hb (by simp [c3, hp1]) (by simp [c3, hp1]) vw
  rw [fresh_size, c3] at s0 s1
  have v0 : AllV S g0 := by
    intro i
    by_cases h : i < 2 ^ (m + 1)
    · have := vg (2 * i) (by omega)
      unfold il at this
      rwa [if_pos (by omega), show 2 * i / 2 = i by omega] at this
    · rw [gt_oob (by omega)]; exact S.zero.1
  have v1 : AllV S g1 := by
    intro i
    by_cases h : i < 2 ^ (m + 1)
    · have := vg (2 * i + 1) (by omega)
      unfold il at this
      rwa [if_neg (by omega), show (2 * i + 1) / 2 = i by omega] at this
    · rw [gt_oob (by omega)]; exact S.zero.1
  refine ⟨g0, g1, s0, s1, v0, v1, ?_, ?_⟩
  · rw [pg, polyOf_cPoly sw]
    unfold cPoly
    exact sum_congr rfl fun j hj => by
      simp only
      rw [pw j (mem_range.1 hj)]
  intro u v eu ev su sv vu vv
  rw [← c3] at eu ev
  obtain ⟨o1, eo1, so1, go1⟩ := vecCopy_spec (a := output) (v := v) (n := L.m_k) (dst := L.m_k) (src := 0) (by omega)
  obtain ⟨x1, ex1, sx1, hx1⟩ := hadamardMul_spec (S := S) (a := v) (v := L.G) (by omega) (fun j _ => vv j) (fun j hj => c13 j (by omega))
  obtain ⟨x2, ex2, sx2, gx2⟩ := addVec_spec (F := F) (a := x1) (v := u) (dst := 0) (src := 0) (len := x1.size) (by omega) (by omega)
  obtain ⟨o2, eo2, so2, go2⟩ := vecCopy_spec (a := o1) (v := x2) (n := L.m_k) (dst := 0) (src := 0) (by omega)
  obtain ⟨o3, eo3, so3, go3⟩ := addVec_spec (F := F) (a := o2) (v := x2) (dst := L.m_k) (src := 0) (len := x2.size) (by omega) (by omega)
  have hx2 : ∀ i, i < 2 ^ (m + 1) → S.V (gt x2 i) ∧ S.φ (gt x2 i) = S.φ (gt v i) * S.φ (gt L.G i) + S.φ (gt u i) := by
    intro i hi'
    rw [gx2, if_pos ⟨by omega, by omega⟩, zero_add, Nat.sub_zero]
    have ha := S.add (hx1 i (by omega)).1 (vu i)
    exact ⟨ha.1, by rw [ha.2, (hx1 i (by omega)).2]⟩
  have hlow : ∀ i, i < 2 ^ (m + 1) → gt o3 i = gt x2 i := by
    intro i hi'
    rw [go3, if_neg (by omega), go2, if_pos ⟨by omega, by omega⟩]; congr 1; omega
  have hhigh : ∀ i, i < 2 ^ (m + 1) → gt o3 (i + 2 ^ (m + 1)) = F.add (gt v i) (gt x2 i) := by
    intro i hi'
    rw [go3, if_pos ⟨by omega, by omega⟩, go2, if_neg (by omega), go1, if_pos ⟨by omega, by omega⟩]
    congr 2 <;> omega
  refine ⟨o3, ?_, by omega, fun i => ?_, fun i hi' => ⟨?_, ?_⟩⟩
  · unfold fft
    rw [if_pos (by omega), ew0, ok_bind, ew, ok_bind, c2, et, ok_bind]
    simp only [cassert]
    rw [eu, ok_bind, ev, ok_bind, eo1, ok_bind, ex1, ok_bind, if_pos (by simp; omega), ok_bind, ex2, ok_bind, eo2, ok_bind, if_pos (by simp; omega), ok_bind, eo3]
  · by_cases h : i < 2 ^ (m + 1)
    · rw [hlow i h]; exact (hx2 i h).1
    · by_cases h' : i < 2 ^ (m + 1 + 1)
      · have := hhigh (i - 2 ^ (m + 1)) (by omega)
        rw [show i - 2 ^ (m + 1) + 2 ^ (m + 1) = i by omega] at this
        rw [this]
        exact (S.add (vv _) (hx2 _ (by omega)).1).1
      · rw [gt_oob (by omega)]; exact S.zero.1
  · rw [hlow i hi', (hx2 i hi').2]
  · rw [hhigh i hi', (S.add (vv i) (hx2 i hi').1).2, (hx2 i hi').2]

/-- the transform on any chain of objects returns, and takes sums to sums -/
theorem fft_sum [CharP K 2] {b : Nat} (mem : Nat → Nat) :
    ∀ (m : Nat) (Ls : List Level) (ox oy oz x y z : Array Nat), WChain S Ls m → m + 1 ≤ b →
      ox.size = 2 ^ (m + 1) → oy.size = 2 ^ (m + 1) → oz.size = 2 ^ (m + 1) → x.size = 2 ^ (m + 1) → y.size = 2 ^ (m + 1) → z.size = 2 ^ (m + 1) →
      AllV S x → AllV S y → AllV S z → (∀ j, S.φ (gt z j) = S.φ (gt x j) + S.φ (gt y j)) →
      ∃ rx ry rz, fft F b mem Ls ox x = .ok rx ∧ fft F b mem Ls oy y = .ok ry ∧ fft F b mem Ls oz z = .ok rz ∧
        rx.size = 2 ^ (m + 1) ∧ ry.size = 2 ^ (m + 1) ∧ rz.size = 2 ^ (m + 1) ∧ AllV S rx ∧ AllV S ry ∧ AllV S rz ∧
        ∀ i, S.φ (gt rz i) = S.φ (gt rx i) + S.φ (gt ry i) := by
  intro m
  induction m with
  | zero =>
    intro Ls ox oy oz x y z hC hb sox soy soz sx sy sz vx vy vz hz
    match Ls, hC with
    | L :: Ls, hC =>
      unfold WChain at hC
      obtain ⟨c1, c2, c3, c4, _⟩ := hC
      have run : ∀ o a : Array Nat, o.size = 2 ^ (0 + 1) → a.size = 2 ^ (0 + 1) → AllV S a → ∃ r, fft F b mem (L :: Ls) o a = .ok r ∧ r.size = 2 ^ (0 + 1) ∧
          AllV S r ∧ ∀ i, S.φ (gt r i) = if i = 0 then S.φ (gt a 0) else if i = 1 then S.φ (gt a 0) + S.φ (gt a 1) * S.φ L.beta_1 else 0 := by
        intro o a ho hi hV
        norm_num at ho hi
        have hm := S.mul (hV 1) c4
        have ha := S.add (hV 0) hm.1
        unfold fft
        rw [if_neg (by omega), rd_gt (by omega), ok_bind, wr_ok (by omega), ok_bind, ok_bind, rd_gt (by omega), ok_bind, wr_ok (by simp; omega)]
        have hg : ∀ i, i < 2 → gt ((o.setIfInBounds 0 (gt a 0)).setIfInBounds 1 (F.add (gt a 0) (F.mul (gt a 1) L.beta_1))) i =
            if i = 1 then F.add (gt a 0) (F.mul (gt a 1) L.beta_1) else gt a 0 := by
          intro i hi
          rw [gt_set (by simp; omega), gt_set (by omega)]
          rcases (show i = 0 ∨ i = 1 by omega) with rfl | rfl <;> simp
        refine ⟨_, rfl, by simp [ho], fun i => ?_, fun i => ?_⟩
        · by_cases h : i < 2
          · rw [hg i h]; split
            · exact ha.1
            · exact hV 0
          · rw [gt_oob (by simp; omega)]; exact S.zero.1
        · by_cases h : i < 2
          · rw [hg i h]
            rcases (show i = 0 ∨ i = 1 by omega) with rfl | rfl
            · simp
            · simp [ha.2, hm.2]
          · rw [gt_oob (by simp; omega), if_neg (by omega), if_neg (by omega)]; exact S.zero.2
      obtain ⟨rx, ex, srx, vrx, px⟩ := run ox x sox sx vx
      obtain ⟨ry, ey, sry, vry, py⟩ := run oy y soy sy vy
      obtain ⟨rz, ez, srz, vrz, pz⟩ := run oz z soz sz vz
      refine ⟨rx, ry, rz, ex, ey, ez, srx, sry, srz, vrx, vry, vrz, fun i => ?_⟩
      rw [px, py, pz]
      split
      · exact hz 0
      · split
        · rw [hz, hz]; ring
        · ring
  | succ m ih =>
    intro Ls ox oy oz x y z hC hb sox soy soz sx sy sz vx vy vz hz
    match Ls, hC with
    | L :: Ls, hC =>
      have hp1 : 2 ^ (m + 1 + 1) = 2 * 2 ^ (m + 1) := pow_succ' 2 _
      obtain ⟨x0, x1, sx0, sx1, vx0, vx1, tx, fx⟩ := fft_step (S := S) mem hC hb sox sx vx
      obtain ⟨y0, y1, sy0, sy1, vy0, vy1, ty, fy⟩ := fft_step (S := S) mem hC hb soy sy vy
      obtain ⟨z0, z1, sz0, sz1, vz0, vz1, tz, fz⟩ := fft_step (S := S) mem hC hb soz sz vz
      unfold WChain at hC
      have hC' := hC.2.2.2.2.2.2.2.2
      have key := tPoly_sum_inj (c'' := fun i => S.φ (il z0 z1 i)) (c := fun i => S.φ (il x0 x1 i)) (c' := fun i => S.φ (il y0 y1 i)) (n := 2 ^ (m + 1 + 1)) (by
        rw [tz, tx, ty, ← cPoly_add_fun]
        unfold cPoly
        exact sum_congr rfl fun j _ => by
          simp only
          rw [hz, add_mul])
      have h0 : ∀ j, S.φ (gt z0 j) = S.φ (gt x0 j) + S.φ (gt y0 j) := by
        intro j
        by_cases h : j < 2 ^ (m + 1)
        · have := key (2 * j) (by omega)
          unfold il at this
          simpa [show 2 * j % 2 = 0 by omega, show 2 * j / 2 = j by omega] using this
        · rw [gt_oob (by omega), gt_oob (by omega), gt_oob (by omega), S.zero.2, add_zero]
      have h1 : ∀ j, S.φ (gt z1 j) = S.φ (gt x1 j) + S.φ (gt y1 j) := by
        intro j
        by_cases h : j < 2 ^ (m + 1)
        · have := key (2 * j + 1) (by omega)
          unfold il at this
          simpa [show ¬ (2 * j + 1) % 2 = 0 by omega, show (2 * j + 1) / 2 = j by omega] using this
        · rw [gt_oob (by omega), gt_oob (by omega), gt_oob (by omega), S.zero.2, add_zero]
      obtain ⟨ux, uy, uz, e1, e2, e3, s1, s2, s3, v1, v2, v3, pu⟩ := ih Ls (fresh mem (2 ^ (m + 1))) (fresh mem (2 ^ (m + 1))) (fresh mem (2 ^ (m + 1)))
        x0 y0 z0 hC' (by omega) (by simp) (by simp) (by simp) sx0 sy0 sz0 vx0 vy0 vz0 h0
      obtain ⟨wx, wy, wz, e4, e5, e6, s4, s5, s6, v4, v5, v6, pw⟩ := ih Ls (fresh mem (2 ^ (m + 1))) (fresh mem (2 ^ (m + 1))) (fresh mem (2 ^ (m + 1)))
        x1 y1 z1 hC' (by omega) (by simp) (by simp) (by simp) sx1 sy1 sz1 vx1 vy1 vz1 h1
      obtain ⟨rx, ex, srx, vrx, px⟩ := fx ux wx e1 e4 s1 s4 v1 v4
      obtain ⟨ry, ey, sry, vry, py⟩ := fy uy wy e2 e5 s2 s5 v2 v5
      obtain ⟨rz, ez, srz, vrz, pz⟩ := fz uz wz e3 e6 s3 s6 v3 v6
      refine ⟨rx, ry, rz, ex, ey, ez, srx, sry, srz, vrx, vry, vrz, fun i => ?_⟩
      by_cases h : i < 2 ^ (m + 1)
      · rw [(px i h).1, (py i h).1, (pz i h).1, pu, pw]; ring
      · by_cases h' : i < 2 ^ (m + 1 + 1)
        · obtain ⟨d, rfl⟩ : ∃ d, i = d + 2 ^ (m + 1) := ⟨i - 2 ^ (m + 1), by omega⟩
          have hd : d < 2 ^ (m + 1) := by omega
          rw [(px d hd).2, (py d hd).2, (pz d hd).2, pu, pw]; ring
        · rw [gt_oob (by omega), gt_oob (by omega), gt_oob (by omega), S.zero.2, add_zero]

end Additive
end Quad
