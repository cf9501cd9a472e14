import Verif.Model.FftOther
import Verif.Lemmas.MatInv
import Verif.Lemmas.MatCode
import Verif.Lemmas.Dft
import Mathlib.Algebra.BigOperators.Ring.Finset
import Mathlib.Algebra.BigOperators.Intervals
import Mathlib.Data.Nat.ChineseRemainder

/-!
# The sums of the mixed-radix transforms, and transforms through views
-/

namespace Quad
open Finset

/-! ## Sums -/

section sums
variable {K : Type} [Field K]

/-- the indices below `n1 * n2` are the `i1 + n1 * i2` -/
theorem sum_range_mul (n1 n2 : Nat) (f : Nat → K) :
    ∑ i ∈ range (n1 * n2), f i = ∑ i1 ∈ range n1, ∑ i2 ∈ range n2, f (i1 + n1 * i2) := by
  rw [← sum_product']
  symm
  refine sum_nbij' (fun p => p.1 + n1 * p.2) (fun i => (i % n1, i / n1)) ?_ ?_ ?_ ?_ ?_
  · rintro ⟨a, c⟩ h
    simp only [mem_product, mem_range] at h ⊢
    calc a + n1 * c < n1 + n1 * c := by omega
      _ = n1 * (c + 1) := by ring
      _ ≤ n1 * n2 := Nat.mul_le_mul_left _ h.2
  · intro i h
    simp only [mem_product, mem_range] at h ⊢
    have h1 : 0 < n1 := Nat.pos_of_ne_zero (by rintro rfl; simp at h)
    exact ⟨Nat.mod_lt _ h1, Nat.div_lt_of_lt_mul h⟩
  · rintro ⟨a, c⟩ h
    simp only [mem_product, mem_range] at h
    simp [Nat.mod_eq_of_lt h.1, Nat.add_mul_div_left _ _ (show 0 < n1 by omega), Nat.div_eq_of_lt h.1]
  · intro i _
    exact Nat.mod_add_div i n1
  · intros; rfl

theorem pow_mod_eq {w : K} {n : Nat} (hw : w ^ n = 1) (a : Nat) : w ^ (a % n) = w ^ a := by
  conv_rhs => rw [← Nat.mod_add_div a n, pow_add, pow_mul, hw, one_pow, mul_one]

/-- Cooley-Tukey -/
theorem ct_sum {w : K} {n1 n2 : Nat} (hw : w ^ (n1 * n2) = 1) (x : Nat → K) (k1 k2 : Nat) :
    ∑ i ∈ range (n1 * n2), w ^ ((k2 + n2 * k1) * i) * x i =
      ∑ i1 ∈ range n1, (w ^ n2) ^ (k1 * i1) * (w ^ (i1 * k2) * ∑ i2 ∈ range n2, (w ^ n1) ^ (k2 * i2) * x (i1 + n1 * i2)) := by
  rw [sum_range_mul]
  refine sum_congr rfl fun i1 _ => ?_
  rw [mul_sum, mul_sum]
  refine sum_congr rfl fun i2 _ => ?_
  rw [← mul_assoc, ← mul_assoc]
  congr 1
  rw [← pow_mul, ← pow_mul, mul_assoc, ← pow_add, ← pow_add]
  rw [show (k2 + n2 * k1) * (i1 + n1 * i2) = n2 * (k1 * i1) + (i1 * k2 + n1 * (k2 * i2)) + n1 * n2 * (k1 * i2) by ring,
    pow_add w _ (n1 * n2 * (k1 * i2)), pow_mul w (n1 * n2), hw, one_pow, mul_one]

/-- the index map of Good-Thomas -/
theorem gt_map_inj {n1 n2 : Nat} (hc : Nat.Coprime n1 n2) {a c a' c' : Nat} (ha : a < n1) (hc1 : c < n2) (ha' : a' < n1)
    (hc' : c' < n2) (h : (n2 * a + n1 * c) % (n1 * n2) = (n2 * a' + n1 * c') % (n1 * n2)) : a = a' ∧ c = c' := by
  have hm : n2 * a + n1 * c ≡ n2 * a' + n1 * c' [MOD n1 * n2] := h
  constructor
  · have h1 := hm.of_mul_right n2
    have h2 : n2 * a ≡ n2 * a' [MOD n1] := by
      have e1 : n2 * a + n1 * c ≡ n2 * a [MOD n1] := by simp [Nat.ModEq]
      have e2 : n2 * a' + n1 * c' ≡ n2 * a' [MOD n1] := by simp [Nat.ModEq]
      exact e1.symm.trans (h1.trans e2)
    have h3 := Nat.ModEq.cancel_left_of_coprime (by simpa using hc) h2
    rwa [Nat.ModEq, Nat.mod_eq_of_lt ha, Nat.mod_eq_of_lt ha'] at h3
  · have h1 := hm.of_mul_left n1
    have h2 : n1 * c ≡ n1 * c' [MOD n2] := by
      have e1 : n2 * a + n1 * c ≡ n1 * c [MOD n2] := by simp [Nat.ModEq]
      have e2 : n2 * a' + n1 * c' ≡ n1 * c' [MOD n2] := by simp [Nat.ModEq]
      exact e1.symm.trans (h1.trans e2)
    have h3 := Nat.ModEq.cancel_left_of_coprime (by simpa using hc.symm) h2
    rwa [Nat.ModEq, Nat.mod_eq_of_lt hc1, Nat.mod_eq_of_lt hc'] at h3

theorem sum_gt_map {n1 n2 : Nat} (h1 : 0 < n1) (h2 : 0 < n2) (hc : Nat.Coprime n1 n2) (f : Nat → K) :
    ∑ i ∈ range (n1 * n2), f i = ∑ i1 ∈ range n1, ∑ i2 ∈ range n2, f ((n2 * i1 + n1 * i2) % (n1 * n2)) := by
  rw [← sum_product']
  symm
  have hmap : Set.MapsTo (fun p : Nat × Nat => (n2 * p.1 + n1 * p.2) % (n1 * n2)) (range n1 ×ˢ range n2 : Finset (Nat × Nat))
      (range (n1 * n2) : Finset Nat) := by
    rintro ⟨a, c⟩ _
    simpa using Nat.mod_lt _ (Nat.mul_pos h1 h2)
  have hinj : Set.InjOn (fun p : Nat × Nat => (n2 * p.1 + n1 * p.2) % (n1 * n2)) (range n1 ×ˢ range n2 : Finset (Nat × Nat)) := by
    rintro ⟨a, c⟩ h ⟨a', c'⟩ h' e
    simp only [coe_product, coe_range, Set.mem_prod, Set.mem_Iio] at h h'
    obtain ⟨e1, e2⟩ := gt_map_inj hc h.1 h.2 h'.1 h'.2 e
    rw [e1, e2]
  refine sum_nbij (fun p => (n2 * p.1 + n1 * p.2) % (n1 * n2)) hmap hinj ?_ ?_
  · exact surjOn_of_injOn_of_card_le _ hmap hinj (by simp)
  · intros; rfl

/-- Good-Thomas -/
theorem gt_sum {w : K} {n1 n2 : Nat} (h1 : 0 < n1) (h2 : 0 < n2) (hc : Nat.Coprime n1 n2) (hw : w ^ (n1 * n2) = 1) (x : Nat → K)
    {k k1 k2 : Nat} (e1 : k ≡ k1 [MOD n1]) (e2 : k ≡ k2 [MOD n2]) :
    ∑ i ∈ range (n1 * n2), w ^ (k * i) * x i =
      ∑ i1 ∈ range n1, (w ^ n2) ^ (k1 * i1) * ∑ i2 ∈ range n2, (w ^ n1) ^ (k2 * i2) * x ((n2 * i1 + n1 * i2) % (n1 * n2)) := by
  rw [sum_gt_map h1 h2 hc]
  refine sum_congr rfl fun i1 _ => ?_
  rw [mul_sum]
  refine sum_congr rfl fun i2 _ => ?_
  rw [← mul_assoc]
  congr 1
  have a1 : (w ^ n2) ^ (k1 * i1) = (w ^ n2) ^ (k * i1) := by
    have hw' : (w ^ n2) ^ n1 = 1 := by rw [← pow_mul, mul_comm]; exact hw
    rw [← pow_mod_eq hw' (k1 * i1), ← pow_mod_eq hw' (k * i1)]
    congr 1
    exact (e1.mul_right i1).symm
  have a2 : (w ^ n1) ^ (k2 * i2) = (w ^ n1) ^ (k * i2) := by
    have hw' : (w ^ n1) ^ n2 = 1 := by rw [← pow_mul]; exact hw
    rw [← pow_mod_eq hw' (k2 * i2), ← pow_mod_eq hw' (k * i2)]
    congr 1
    exact (e2.mul_right i2).symm
  rw [a1, a2, ← pow_mul, ← pow_mul, ← pow_add, ← pow_mod_eq hw]
  conv_rhs => rw [← pow_mod_eq hw]
  congr 1
  have : k * ((n2 * i1 + n1 * i2) % (n1 * n2)) ≡ k * (n2 * i1 + n1 * i2) [MOD n1 * n2] :=
    (Nat.mod_modEq _ _).mul_left k
  rw [Nat.ModEq] at this
  rw [this]
  congr 1
  ring

end sums

/-! ## Transforms -/

variable {F : GF} {K : Type} [Field K] {S : F.Sim K}

/-- `f(output, input)` writes the sums `Σ_j w^(ij) x_j` -/
def IsDft (S : F.Sim K) (f : Array Nat → Array Nat → Res (Array Nat)) (n : Nat) (w : K) : Prop :=
  ∀ out x, out.size = n → x.size = n → (∀ j, j < n → S.V (gt x j)) →
    ∃ r, f out x = .ok r ∧ r.size = n ∧ ∀ i, i < n → S.V (gt r i) ∧
      S.φ (gt r i) = ∑ j ∈ range n, w ^ (i * j) * S.φ (gt x j)

theorem size2_dft {w : K} (hw : w = -1) : IsDft S (Size2.fft F) 2 w := by
  intro out x ho hx hv
  refine ⟨(out.setIfInBounds 0 (F.add (gt x 0) (gt x 1))).setIfInBounds 1 (F.sub (gt x 0) (gt x 1)), ?_, by simp [ho], ?_⟩
  · unfold Size2.fft
    rw [rd_gt (by omega), rd_gt (by omega)]
    simp only [ok_bind]
    rw [wr_ok (by omega)]
    simp only [ok_bind]
    rw [wr_ok (by simp; omega)]
  · intro i hi
    have a := S.add (hv 0 (by omega)) (hv 1 (by omega))
    have s := S.sub (hv 0 (by omega)) (hv 1 (by omega))
    rw [gt_set (by simp; omega)]
    simp only [sum_range_succ, range_zero, sum_empty, zero_add, hw]
    rcases (show i = 0 ∨ i = 1 by omega) with rfl | rfl
    · rw [if_neg (by omega), gt_set (by omega), if_pos rfl]
      refine ⟨a.1, ?_⟩
      rw [a.2]; simp
    · rw [if_pos rfl]
      refine ⟨s.1, ?_⟩
      rw [s.2]; simp; ring

theorem gather_ok {v : Array Nat} {off step len : Nat} (hv : 0 < v.size) (hb : ∀ i, i < len → off + step * i < 2 ^ 31) :
    ∃ a, gather v off step len = .ok a ∧ a.size = len ∧ ∀ i, i < len → gt a i = gt v ((off + step * i) % v.size) := by
  unfold gather
  obtain ⟨a, e, h1, h2⟩ := forN_inv (n := len) (s := Array.replicate len 0)
    (f := fun i a => do
      let loc ← viewLoc off step v.size i
      let x ← rd v loc
      wr a i x)
    (I := fun k a => a.size = len ∧ ∀ i, i < k → gt a i = gt v ((off + step * i) % v.size))
    ⟨by simp, by omega⟩ (by
      rintro k s hk ⟨h1, h2⟩
      refine ⟨s.setIfInBounds k (gt v ((off + step * k) % v.size)), ?_, by simp [h1], ?_⟩
      · unfold viewLoc
        rw [if_pos (hb k hk)]
        simp only [ok_bind]
        rw [rd_gt (Nat.mod_lt _ hv)]
        simp only [ok_bind]
        rw [wr_ok (by omega)]
      · intro i hi
        rw [gt_set (by omega)]
        split
        · rename_i h; rw [h]
        · exact h2 i (by omega))
  exact ⟨a, e, h1, fun i hi => h2 i hi⟩

theorem scatter_ok {v a : Array Nat} {off step len : Nat} (hv : 0 < v.size) (ha : a.size = len)
    (hb : ∀ i, i < len → off + step * i < 2 ^ 31)
    (hinj : ∀ i i', i < len → i' < len → (off + step * i) % v.size = (off + step * i') % v.size → i = i') :
    ∃ r, scatter v off step len a = .ok r ∧ r.size = v.size ∧
      (∀ i, i < len → gt r ((off + step * i) % v.size) = gt a i) ∧
      (∀ p, (∀ i, i < len → (off + step * i) % v.size ≠ p) → gt r p = gt v p) := by
  unfold scatter
  obtain ⟨r, e, h1, h2, h3⟩ := forN_inv (n := len) (s := v)
    (f := fun i v => do
      let loc ← viewLoc off step v.size i
      let x ← rd a i
      wr v loc x)
    (I := fun k r => r.size = v.size ∧ (∀ i, i < k → gt r ((off + step * i) % v.size) = gt a i) ∧
      (∀ p, (∀ i, i < k → (off + step * i) % v.size ≠ p) → gt r p = gt v p))
    ⟨rfl, by omega, fun _ _ => rfl⟩ (by
      rintro k s hk ⟨h1, h2, h3⟩
      have hlt := Nat.mod_lt (off + step * k) hv
      refine ⟨s.setIfInBounds ((off + step * k) % v.size) (gt a k), ?_, by simp [h1], ?_, ?_⟩
      · unfold viewLoc
        rw [if_pos (hb k hk), h1]
        simp only [ok_bind]
        rw [rd_gt (by omega)]
        simp only [ok_bind]
        rw [wr_ok (by omega)]
      · intro i hi
        rw [gt_set (by omega)]
        by_cases hik : i = k
        · rw [hik, if_pos rfl]
        · rw [if_neg (fun h => hik (hinj i k (by omega) hk h))]
          exact h2 i (by omega)
      · intro p hp
        rw [gt_set (by omega), if_neg (fun h => hp k (by omega) h.symm)]
        exact h3 p (fun i hi => hp i (by omega)))
  exact ⟨r, e, h1, h2, h3⟩

/-- a loop of transforms through views -/
theorem viewsLoop {f : Array Nat → Array Nat → Res (Array Nat)} {len : Nat} {w : K} (hf : IsDft S f len w) {m : Nat}
    {dst src : Array Nat} {doff soff : Nat → Nat} {dstep sstep : Nat} (hD : 0 < dst.size) (hS : 0 < src.size)
    (hd : ∀ t, t < m → ∀ i, i < len → doff t + dstep * i < 2 ^ 31)
    (hs : ∀ t, t < m → ∀ i, i < len → soff t + sstep * i < 2 ^ 31)
    (hinj : ∀ t t' i i', t < m → t' < m → i < len → i' < len →
      (doff t + dstep * i) % dst.size = (doff t' + dstep * i') % dst.size → t = t' ∧ i = i')
    (hv : ∀ j, j < src.size → S.V (gt src j)) :
    ∃ r, forN m dst (fun t dst => viaViews f len dst (doff t) dstep src (soff t) sstep) = .ok r ∧ r.size = dst.size ∧
      ∀ t, t < m → ∀ i, i < len → S.V (gt r ((doff t + dstep * i) % dst.size)) ∧
        S.φ (gt r ((doff t + dstep * i) % dst.size)) =
          ∑ j ∈ range len, w ^ (i * j) * S.φ (gt src ((soff t + sstep * j) % src.size)) := by
  refine forN_inv (I := fun k (r : Array Nat) => r.size = dst.size ∧
      ∀ t, t < k → ∀ i, i < len → S.V (gt r ((doff t + dstep * i) % dst.size)) ∧
        S.φ (gt r ((doff t + dstep * i) % dst.size)) =
          ∑ j ∈ range len, w ^ (i * j) * S.φ (gt src ((soff t + sstep * j) % src.size))) ⟨rfl, by omega⟩ ?_
  rintro k s hk ⟨h1, h2⟩
  obtain ⟨x, ex, x1, x2⟩ := gather_ok (v := src) (off := soff k) (step := sstep) (len := len) hS (hs k hk)
  obtain ⟨y, ey, y1, _⟩ := gather_ok (v := s) (off := doff k) (step := dstep) (len := len) (by omega) (hd k hk)
  obtain ⟨z, ez, z1, z2⟩ := hf y x y1 x1 (fun j hj => by
    rw [x2 j hj]; exact hv _ (Nat.mod_lt _ hS))
  obtain ⟨r, er, r1, r2, r3⟩ := scatter_ok (v := s) (a := z) (off := doff k) (step := dstep) (len := len) (by omega) z1 (hd k hk)
    (fun i i' hi hi' h => by rw [h1] at h; exact (hinj k k i i' hk hk hi hi' h).2)
  rw [h1] at r2 r3
  refine ⟨r, ?_, by omega, ?_⟩
  · unfold viaViews
    rw [ex, ok_bind, ey, ok_bind, ez, ok_bind, er]
  · intro t ht i hi
    by_cases htk : t = k
    · subst htk
      rw [r2 i hi]
      refine ⟨(z2 i hi).1, ?_⟩
      rw [(z2 i hi).2]
      refine sum_congr rfl fun j hj => ?_
      rw [x2 j (mem_range.mp hj)]
    · rw [r3 _ (fun i' hi' h => htk (hinj k t i' i hk (by omega) hi' hi h).1.symm)]
      exact h2 t (by omega) i hi

/-! ## Cooley-Tukey -/

theorem idx12 {n1 n2 i k : Nat} (hi : i < n1) (hk : k < n2) : i + n1 * k < n1 * n2 := by
  calc i + n1 * k < n1 + n1 * k := by omega
    _ = n1 * (k + 1) := by ring
    _ ≤ n1 * n2 := Nat.mul_le_mul_left _ hk

theorem idx12_inj {n1 i k i' k' : Nat} (hi : i < n1) (hi' : i' < n1) (h : i + n1 * k = i' + n1 * k') : i = i' ∧ k = k' := by
  have h1 := congrArg (· % n1) h
  simp only [Nat.add_mul_mod_self_left, Nat.mod_eq_of_lt hi, Nat.mod_eq_of_lt hi'] at h1
  subst h1
  have : n1 * k = n1 * k' := by omega
  exact ⟨rfl, Nat.eq_of_mul_eq_mul_left (by omega) this⟩

theorem twiddle_spec (H : S.Full) {n1 n2 w : Nat} (hw : S.V w) {G : Array Nat} (hG : G.size = n1 * n2) (h1 : 0 < n1) (h2 : 0 < n2)
    (hv : ∀ j, j < n1 * n2 → S.V (gt G j)) :
    ∃ G', CooleyTukey.mul_twiddle_factors F n1 n2 w G = .ok G' ∧ G'.size = n1 * n2 ∧
      ∀ i k, i < n1 → k < n2 → S.V (gt G' (i + n1 * k)) ∧
        S.φ (gt G' (i + n1 * k)) = S.φ w ^ (i * k) * S.φ (gt G (i + n1 * k)) := by
  have key := forStep_inv (a := 1) (b := n1) (st := 1) (s := (G, 1))
    (f := fun i1 (s : Array Nat × Nat) => do
      let base := F.mul s.2 w
      let t ← forStep 1 n2 1 (s.1, base) (fun k2 (t : Array Nat × Nat) => do
        let loc := i1 + n1 * k2
        let x ← rd t.1 loc
        let G ← wr t.1 loc (F.mul x t.2)
        pure (G, F.mul t.2 base))
      pure (t.1, base))
    (I := fun t (s : Array Nat × Nat) => s.1.size = n1 * n2 ∧ S.V s.2 ∧ S.φ s.2 = S.φ w ^ t ∧
      ∀ i k, i < n1 → k < n2 → S.V (gt s.1 (i + n1 * k)) ∧
        S.φ (gt s.1 (i + n1 * k)) = (if i ≤ t then S.φ w ^ (i * k) else 1) * S.φ (gt G (i + n1 * k)))
    (by omega) ⟨hG, H.v1.1, by rw [H.v1.2, pow_zero], fun i k hi hk => ⟨hv _ (idx12 hi hk), by
      split
      · rename_i h
        obtain rfl : i = 0 := by omega
        simp
      · rw [one_mul]⟩⟩ (by
      rintro t ⟨G1, b0⟩ ht ⟨g1, g2, g3, g4⟩
      simp only at g1 g2 g3 g4
      obtain ⟨b1, b2⟩ := S.mul g2 hw
      have b2' : S.φ (F.mul b0 w) = S.φ w ^ (t + 1) := by rw [b2, g3, pow_succ]
      obtain ⟨⟨G2, fc⟩, e2, i1, i2, i3, i4⟩ := forStep_inv (a := 1) (b := n2) (st := 1) (s := (G1, F.mul b0 w))
        (f := fun k2 (u : Array Nat × Nat) => do
          let loc := (1 + t * 1) + n1 * k2
          let x ← rd u.1 loc
          let G ← wr u.1 loc (F.mul x u.2)
          pure (G, F.mul u.2 (F.mul b0 w)))
        (I := fun u (s : Array Nat × Nat) => s.1.size = n1 * n2 ∧ S.V s.2 ∧ S.φ s.2 = (S.φ w ^ (t + 1)) ^ (u + 1) ∧
          ∀ i k, i < n1 → k < n2 → S.V (gt s.1 (i + n1 * k)) ∧
            S.φ (gt s.1 (i + n1 * k)) = (if i ≤ t ∨ (i = t + 1 ∧ k ≤ u) then S.φ w ^ (i * k) else 1) * S.φ (gt G (i + n1 * k)))
        (by omega) ⟨g1, b1, by rw [b2']; simp, fun i k hi hk => ⟨(g4 i k hi hk).1, by
          rw [(g4 i k hi hk).2]
          congr 1
          by_cases c1 : i ≤ t
          · rw [if_pos c1, if_pos (Or.inl c1)]
          · rw [if_neg c1]
            by_cases c2 : i = t + 1 ∧ k ≤ 0
            · rw [if_pos (Or.inr c2), show k = 0 by omega]; simp
            · rw [if_neg (by tauto)]⟩⟩ (by
          rintro u ⟨G3, f3⟩ hu ⟨j1, j2, j3, j4⟩
          simp only at j1 j2 j3 j4
          have hlt : (1 + t * 1) + n1 * (1 + u * 1) < n1 * n2 := idx12 (by omega) (by omega)
          obtain ⟨x1, x2⟩ := j4 (1 + t * 1) (1 + u * 1) (by omega) (by omega)
          obtain ⟨m1, m2⟩ := S.mul x1 j2
          obtain ⟨p1, p2⟩ := S.mul j2 b1
          refine ⟨(G3.setIfInBounds ((1 + t * 1) + n1 * (1 + u * 1)) (F.mul (gt G3 ((1 + t * 1) + n1 * (1 + u * 1))) f3),
            F.mul f3 (F.mul b0 w)), ?_, by simp [j1], p1, ?_, ?_⟩
          · show (rd G3 _ >>= fun x => wr G3 _ (F.mul x f3) >>= fun G => pure (G, F.mul f3 (F.mul b0 w))) = _
            rw [rd_gt (by omega), ok_bind, wr_ok (by omega), ok_bind]
            rfl
          · rw [p2, j3, b2', ← pow_succ]
          · intro i k hi hk
            simp only
            rw [gt_set (by omega)]
            by_cases hc : i + n1 * k = (1 + t * 1) + n1 * (1 + u * 1)
            · obtain ⟨hi1, hk1⟩ := idx12_inj hi (by omega) hc
              rw [if_pos hc, if_pos (Or.inr ⟨by omega, by omega⟩)]
              refine ⟨m1, ?_⟩
              rw [m2, x2, j3, if_neg (by omega), hi1, hk1]
              rw [one_mul, mul_comm, ← pow_mul]
              congr 2
              ring
            · rw [if_neg hc]
              refine ⟨(j4 i k hi hk).1, ?_⟩
              rw [(j4 i k hi hk).2]
              have hne : ¬ (i = t + 1 ∧ k = u + 1) := by
                rintro ⟨rfl, rfl⟩
                apply hc; ring
              congr 1
              by_cases c1 : i ≤ t ∨ (i = t + 1 ∧ k ≤ u)
              · rw [if_pos c1, if_pos (by omega)]
              · rw [if_neg c1, if_neg (by omega)])
      refine ⟨(G2, F.mul b0 w), ?_, i1, b1, b2', ?_⟩
      · simp only [] at e2 ⊢
        rw [e2]; rfl
      · intro i k hi hk
        refine ⟨(i4 i k hi hk).1, ?_⟩
        rw [(i4 i k hi hk).2]
        congr 1
        have hst : stride 1 n2 1 = n2 - 1 := by simp [stride]
        rw [hst]
        by_cases c1 : i ≤ t + 1
        · rw [if_pos c1, if_pos (by omega)]
        · rw [if_neg c1, if_neg (by omega)])
  obtain ⟨⟨G', b'⟩, e, i1, _, _, i4⟩ := key
  refine ⟨G', ?_, i1, ?_⟩
  · unfold CooleyTukey.mul_twiddle_factors
    rw [e]; rfl
  · intro i k hi hk
    have hst : stride 1 n1 1 = n1 - 1 := by simp [stride]
    have := i4 i k hi hk
    rw [hst, if_pos (by omega)] at this
    exact this

theorem ct_layer (H : S.Full) {n1 n2 w : Nat} (hw : S.V w) (h1 : 0 < n1) (h2 : 0 < n2) (hb : n1 * n2 < 2 ^ 31)
    (hone : S.φ w ^ (n1 * n2) = 1)
    {inner outer : Array Nat → Array Nat → Res (Array Nat)} (hi : IsDft S inner n2 (S.φ w ^ n1)) (ho : IsDft S outer n1 (S.φ w ^ n2))
    {G : Array Nat} (hG : G.size = n1 * n2) : IsDft S (CooleyTukey.layer F n1 n2 w inner outer G) (n1 * n2) (S.φ w) := by
  intro out x hos hx hv
  have hpos : 0 < n1 * n2 := Nat.mul_pos h1 h2
  obtain ⟨G1, e1, s1, v1⟩ := viewsLoop (S := S) hi (m := n1) (dst := G) (src := x) (doff := fun t => t) (soff := fun t => t)
    (dstep := n1) (sstep := n1) (by omega) (by omega)
    (fun t ht i hi => by have := idx12 (n1 := n1) ht hi; omega)
    (fun t ht i hi => by have := idx12 (n1 := n1) ht hi; omega)
    (fun t t' i i' ht ht' hi hi' h => by
      rw [hG, Nat.mod_eq_of_lt (idx12 ht hi), Nat.mod_eq_of_lt (idx12 ht' hi')] at h
      exact idx12_inj ht ht' h)
    (fun j hj => hv j (by omega))
  have v1' : ∀ t, t < n1 → ∀ i, i < n2 → S.V (gt G1 (t + n1 * i)) ∧
      S.φ (gt G1 (t + n1 * i)) = ∑ j ∈ range n2, (S.φ w ^ n1) ^ (i * j) * S.φ (gt x (t + n1 * j)) := by
    intro t ht i hi
    have := v1 t ht i hi
    rw [hG, Nat.mod_eq_of_lt (idx12 ht hi)] at this
    refine ⟨this.1, this.2.trans (sum_congr rfl fun j hj => ?_)⟩
    rw [hx, Nat.mod_eq_of_lt (idx12 ht (mem_range.mp hj))]
  have all : ∀ j, j < n1 * n2 → ∃ t i, t < n1 ∧ i < n2 ∧ j = t + n1 * i := fun j hj =>
    ⟨j % n1, j / n1, Nat.mod_lt _ h1, Nat.div_lt_of_lt_mul hj, (Nat.mod_add_div j n1).symm⟩
  obtain ⟨G2, e2, s2, v2⟩ := twiddle_spec H hw (n1 := n1) (n2 := n2) (G := G1) (by omega) h1 h2 (fun j hj => by
    obtain ⟨t, i, ht, hi, rfl⟩ := all j hj
    exact (v1' t ht i hi).1)
  have all' : ∀ j, j < n1 * n2 → ∃ t i, t < n2 ∧ i < n1 ∧ j = t + n2 * i := fun j hj =>
    ⟨j % n2, j / n2, Nat.mod_lt _ h2, Nat.div_lt_of_lt_mul (by rw [mul_comm]; exact hj), (Nat.mod_add_div j n2).symm⟩
  have idx21 : ∀ {t i}, t < n2 → i < n1 → t + n2 * i < n1 * n2 := fun ht hi => by
    have := idx12 (n1 := n2) ht hi; rwa [mul_comm n2 n1] at this
  obtain ⟨r, e3, s3, v3⟩ := viewsLoop (S := S) ho (m := n2) (dst := out) (src := G2) (doff := fun t => t) (soff := fun t => t * n1)
    (dstep := n2) (sstep := 1) (by omega) (by omega)
    (fun t ht i hi => by have := idx21 ht hi; omega)
    (fun t ht i hi => by have := idx12 (n1 := n1) hi ht; rw [mul_comm t n1]; omega)
    (fun t t' i i' ht ht' hi hi' h => by
      rw [hos, Nat.mod_eq_of_lt (idx21 ht hi), Nat.mod_eq_of_lt (idx21 ht' hi')] at h
      exact idx12_inj ht ht' h)
    (fun j hj => by
      obtain ⟨t, i, ht, hi, rfl⟩ := all j (by omega)
      exact (v2 t i ht hi).1)
  refine ⟨r, ?_, by omega, ?_⟩
  · unfold CooleyTukey.layer
    rw [e1, ok_bind, e2, ok_bind, e3]
  · intro k hk
    obtain ⟨k2, k1, hk2, hk1, rfl⟩ := all' k hk
    have := v3 k2 hk2 k1 hk1
    rw [hos, Nat.mod_eq_of_lt (idx21 hk2 hk1)] at this
    refine ⟨this.1, this.2.trans ?_⟩
    rw [ct_sum hone]
    refine sum_congr rfl fun i1 hi1 => ?_
    have hi1 := mem_range.mp hi1
    have hix : (k2 * n1 + 1 * i1) % G2.size = i1 + n1 * k2 := by
      rw [s2, Nat.mod_eq_of_lt]
      · ring
      · have := idx12 (n1 := n1) hi1 hk2
        rw [mul_comm k2 n1]; omega
    rw [hix, (v2 i1 k2 hi1 hk2).2, (v1' i1 hi1 k2 hk2).2]

end Quad
