import Verif.Lemmas.FftDft

/-!
# The transforms other than Radix2
-/

namespace Quad
open Finset

variable {F : GF} [F.Plain] {K : Type} [Field K] {S : F.Sim K}

/-! ## Naive -/

theorem compute_W_spec {n : Nat} (hn : (n - 1) * (n - 1) < 2 ^ 31) (mem : Nat → Nat) (w : Nat) :
    ∃ W, Naive.compute_W F n (Mat.mk' n n mem) w = .ok W ∧ Mat.Is W n n (fun i j => F.exp w ((i * j) % n)) := by
  unfold Naive.compute_W
  obtain ⟨W, e, h⟩ := forN_inv (n := n) (s := Mat.mk' n n mem)
    (f := fun i W => forN n W (fun j W => if i * j < 2 ^ 31 then W.set i j (F.exp w ((i * j) % n)) else ub))
    (I := fun k W => Mat.Is W n n (fun i j => if i < k then F.exp w ((i * j) % n) else mem (i * n + j)))
    ((Mat.mk'_is n n mem).congr fun i j _ _ => by simp) (by
      intro k W hk hW
      obtain ⟨W', e', h'⟩ := forN_inv (n := n) (s := W)
        (f := fun j W => if k * j < 2 ^ 31 then W.set k j (F.exp w ((k * j) % n)) else ub)
        (I := fun l W => Mat.Is W n n (fun i j => if i < k ∨ i = k ∧ j < l then F.exp w ((i * j) % n) else mem (i * n + j)))
        (hW.congr fun i j _ _ => by simp) (by
          intro l W hl hW
          have hlt : k * l < 2 ^ 31 := lt_of_le_of_lt (Nat.mul_le_mul (by omega) (by omega)) hn
          obtain ⟨W1, e1, i1⟩ := hW.set hk hl (F.exp w ((k * l) % n))
          refine ⟨W1, by rw [if_pos hlt]; exact e1, i1.congr fun i j _ _ => ?_⟩
          by_cases a : i = k ∧ j = l
          · obtain ⟨rfl, rfl⟩ := a; simp
          · rw [if_neg a]
            by_cases b : i < k ∨ i = k ∧ j < l
            · rw [if_pos b, if_pos (by omega)]
            · rw [if_neg b, if_neg (by omega)])
      refine ⟨W', e', h'.congr fun i j _ hj => ?_⟩
      by_cases a : i < k ∨ i = k ∧ j < n
      · rw [if_pos a, if_pos (by omega)]
      · rw [if_neg a, if_neg (by omega)])
  exact ⟨W, e, h.congr fun i j hi _ => by simp [hi]⟩

theorem naive_mul_dft {n w : Nat} (hn0 : 0 < n) (hw : S.V w) (hone : S.φ w ^ n = 1) {W : Mat}
    (hW : Mat.Is W n n (fun i j => F.exp w ((i * j) % n))) : IsDft S (fun out input => W.mul F out input) n (S.φ w) := by
  intro out x ho hx hv
  obtain ⟨r, e, h1, h2⟩ := Mat.mul_sem hW hn0 (fun i j _ _ => (S.exp hw).1) hx ho hv
  refine ⟨r, e, h1, fun i hi => ⟨(h2 i hi).1, (h2 i hi).2.trans (sum_congr rfl fun j _ => ?_)⟩⟩
  rw [(S.exp hw).2, pow_mod_eq hone]

/-- what a transform object of length `n` with root `w` does -/
structure IsFT (S : F.Sim K) (T : FT) (n : Nat) (w : K) : Prop where
  fft : IsDft S T.fft n w
  fft_inv : IsDft S T.fft_inv n w⁻¹

/-- a field the transforms work on: `q` elements, words of `b` bits -/
structure DftField (F : GF) (b q : Nat) {K : Type} [Field K] (S : F.Sim K) : Prop where
  full : S.Full
  val : ∀ a, S.V a ↔ a < q
  two : 2 ≤ q
  root : ∀ n, n ∣ q - 1 → ∃ w, F.nthRoot n = .ok w ∧ S.V w ∧ IsPrimitiveRoot (S.φ w) n
  invN : ∀ n, n ∣ q - 1 → ∃ v, F.invN n = .ok v ∧ (v ≤ 1 → (n : K) = 1) ∧ (1 < v → S.V v ∧ S.φ v * (n : K) = 1)
  even : b % 2 = 0
  pos : 0 < b
  room : q ≤ 2 ^ b

variable {b q : Nat}

theorem DftField.dvd_pos (D : DftField F b q S) {n : Nat} (h : n ∣ q - 1) : 0 < n := by
  have := D.two
  exact Nat.pos_of_dvd_of_pos h (by omega)

theorem DftField.inv (D : DftField F b q S) {w n : Nat} (hw : S.V w) (hn : 0 < n) (hone : S.φ w ^ n = 1) :
    ∃ v, F.inv w = .ok v ∧ S.V v ∧ S.φ v = (S.φ w)⁻¹ :=
  S.inv hw (D.full.u hw (by
    intro h
    rw [h, zero_pow (by omega)] at hone
    exact zero_ne_one hone))

theorem intLen_of {n : Nat} (h : n < 2 ^ 31) : intLen n = .ok n := by
  unfold intLen
  rw [Nat.mod_eq_of_lt (by omega), if_pos h]

theorem lt_of_sq {n : Nat} (h : (n - 1) * (n - 1) < 2 ^ 31) : n < 2 ^ 31 := by
  by_contra hc
  have : 2 ^ 30 * 2 ^ 30 ≤ (n - 1) * (n - 1) := Nat.mul_le_mul (by omega) (by omega)
  omega

theorem naive_ft (D : DftField F b q S) {n w pkt : Nat} (hn : n ∣ q - 1) (hsq : (n - 1) * (n - 1) < 2 ^ 31) (hw : S.V w)
    (hone : S.φ w ^ n = 1) (mem : Nat → Nat) :
    ∃ T, Naive.mk' F n w pkt mem = .ok T ∧ IsFT S T n (S.φ w) ∧ T.n = n := by
  have hn0 := D.dvd_pos hn
  obtain ⟨v, ev, _⟩ := D.invN n hn
  obtain ⟨iw, ei, i1, i2⟩ := D.inv hw hn0 hone
  obtain ⟨W, eW, hW⟩ := compute_W_spec (F := F) hsq mem w
  obtain ⟨W', eW', hW'⟩ := compute_W_spec (F := F) hsq mem iw
  refine ⟨Naive.ft F n pkt v W W', ?_, ⟨naive_mul_dft hn0 hw hone hW, ?_⟩, rfl⟩
  rotate_left
  · have := naive_mul_dft hn0 i1 (by rw [i2, inv_pow, hone, inv_one]) hW'
    rw [i2] at this
    exact this
  · unfold Naive.mk'
    rw [intLen_of (lt_of_sq hsq), ok_bind, ev, ok_bind, ei, ok_bind, eW, ok_bind, eW', ok_bind]
    rfl

theorem neg_one_of_primitive {w : K} (h : IsPrimitiveRoot w 2) : w = -1 := by
  have h1 : w ^ 2 = 1 := h.pow_eq_one
  have h2 : w ≠ 1 := h.ne_one (by norm_num)
  have h3 : (w - 1) * (w + 1) = 0 := by ring_nf; rw [h1]; ring
  rcases mul_eq_zero.mp h3 with h | h
  · exact absurd (sub_eq_zero.mp h) h2
  · exact eq_neg_of_add_eq_zero_left h

theorem outer_ft (D : DftField F b q S) {n w : Nat} (hn : n ∣ q - 1) (hsq : (n - 1) * (n - 1) < 2 ^ 31) (hw : S.V w)
    (hp : IsPrimitiveRoot (S.φ w) n) (mem : Nat → Nat) :
    ∃ T, CooleyTukey.outer F n w mem = .ok T ∧ IsFT S T n (S.φ w) := by
  unfold CooleyTukey.outer
  by_cases h2 : n = 2
  · rw [if_pos h2]
    subst h2
    obtain ⟨v, ev, _⟩ := D.invN 2 hn
    have hm := neg_one_of_primitive hp
    refine ⟨_, by unfold Size2.mk'; rw [ev, ok_bind]; rfl, ⟨size2_dft hm, ?_⟩⟩
    exact size2_dft (by rw [hm]; norm_num)
  · rw [if_neg h2]
    obtain ⟨T, e, h, _⟩ := naive_ft D hn hsq hw hp.pow_eq_one mem (pkt := 0)
    exact ⟨T, e, h⟩

/-- the lists of factors the layers are built on -/
theorem build_ft (D : DftField F b q S) (mem : Nat → Nat) : ∀ (fs : List Nat) (first : Bool) (n w : Nat), fs ≠ [] → fs.prod = n →
    (∀ f ∈ fs, 1 < f ∧ (f - 1) * (f - 1) < 2 ^ 31) → n ∣ q - 1 → n < 2 ^ 31 → S.V w → IsPrimitiveRoot (S.φ w) n →
    ∃ T v, CooleyTukey.build F mem first fs n w = .ok T ∧ F.invN n = .ok v ∧ IsFT S T n (S.φ w) ∧ T.n = n ∧
      T.ifft = fun out input => T.fft_inv out input >>= fun out => if first then scaleIf F v out else pure out := by
  intro fs
  induction fs with
  | nil => intro _ _ _ h; exact absurd rfl h
  | cons n1 fs ih =>
    intro first n w _ hprod hf hn hlt hw hp
    have hn0 := D.dvd_pos hn
    rw [List.prod_cons] at hprod
    obtain ⟨h1, hsq⟩ := hf n1 (by simp)
    have hdiv : n / n1 = fs.prod := by rw [← hprod]; exact Nat.mul_div_cancel_left _ (by omega)
    have h2 : 0 < fs.prod := by
      rcases Nat.eq_zero_or_pos fs.prod with h | h
      · rw [h, mul_zero] at hprod; omega
      · exact h
    obtain ⟨v, ev, _⟩ := D.invN n hn
    obtain ⟨iw, ei, i1, i2⟩ := D.inv hw hn0 hp.pow_eq_one
    have hw1 := S.exp (e := fs.prod) hw
    have hp1 : IsPrimitiveRoot (S.φ w ^ fs.prod) n1 := hp.pow (by omega) (by rw [← hprod, mul_comm])
    obtain ⟨o, eo, ho⟩ := outer_ft D (n := n1) (w := F.exp w fs.prod) ((Dvd.intro _ hprod).trans hn) hsq hw1.1 (by rw [hw1.2]; exact hp1) mem
    rw [hw1.2] at ho
    by_cases hgt : fs.prod > 1
    · have hw2 := S.exp (e := n1) hw
      have hne : fs ≠ [] := by rintro rfl; simp at hgt
      have hp2 : IsPrimitiveRoot (S.φ w ^ n1) fs.prod := hp.pow (by omega) hprod.symm
      obtain ⟨T, v', eT, _, hT, _, _⟩ := ih false fs.prod (F.exp w n1) hne rfl (fun f hf' => hf f (by simp [hf']))
        ((Dvd.intro_left _ hprod).trans hn) (by nlinarith) hw2.1 (by rw [hw2.2]; exact hp2)
      rw [hw2.2] at hT
      refine ⟨vecFT F n first v (CooleyTukey.layer F n1 fs.prod w T.fft o.fft (fresh mem n))
        (CooleyTukey.layer F n1 fs.prod iw T.fft_inv o.fft_inv (fresh mem n)), v, ?_, ev, ⟨?_, ?_⟩, rfl, rfl⟩
      rotate_left
      · have := ct_layer D.full hw (n1 := n1) (n2 := fs.prod) (by omega) h2 (by omega) (by rw [hprod]; exact hp.pow_eq_one) hT.fft ho.fft
          (G := fresh mem n) (by simp [fresh, hprod])
        rw [hprod] at this
        exact this
      · have := ct_layer D.full i1 (n1 := n1) (n2 := fs.prod) (by omega) h2 (by omega)
          (by rw [hprod, i2, inv_pow, hp.pow_eq_one, inv_one])
          (by rw [i2, inv_pow]; exact hT.fft_inv) (by rw [i2, inv_pow]; exact ho.fft_inv)
          (G := fresh mem n) (by simp [fresh, hprod])
        rw [hprod, i2] at this
        exact this
      · simp only [CooleyTukey.build, intLen_of hlt, ev, ok_bind, ei]
        rw [if_neg (by omega), hdiv]
        simp only [eo, ok_bind]
        rw [if_pos hgt]
        simp only [eT, ok_bind]
        rfl
    · have hfs : fs.prod = 1 := by omega
      rw [hfs, mul_one] at hprod
      subst hprod
      rw [hfs, pow_one] at ho
      refine ⟨vecFT F n1 first v o.fft o.fft_inv, v, ?_, ev, ⟨?_, ?_⟩, rfl, rfl⟩
      rotate_left
      · exact ho.fft
      · exact ho.fft_inv
      · simp only [CooleyTukey.build, intLen_of hlt, ev, ok_bind, ei]
        rw [if_neg (by omega), hdiv]
        simp only [eo, ok_bind]
        rw [if_neg hgt]
        rfl

/-! ## The inverse -/

theorem mulScalar_spec {a : Array Nat} {s : Nat} (hs : S.V s) (hv : ∀ j, j < a.size → S.V (gt a j)) :
    ∃ r, mulScalar F a s = .ok r ∧ r.size = a.size ∧ ∀ j, j < a.size → S.V (gt r j) ∧ S.φ (gt r j) = S.φ (gt a j) * S.φ s := by
  unfold mulScalar
  obtain ⟨r, e, h1, h2⟩ := forN_inv (n := a.size) (s := a)
    (f := fun i a => do
      let x ← rd a i
      wr a i (F.mul x s))
    (I := fun k r => r.size = a.size ∧ ∀ j, j < a.size → S.V (gt r j) ∧ S.φ (gt r j) = if j < k then S.φ (gt a j) * S.φ s else S.φ (gt a j))
    ⟨rfl, fun j hj => ⟨hv j hj, by simp⟩⟩ (by
      rintro k r hk ⟨h1, h2⟩
      obtain ⟨m1, m2⟩ := S.mul (h2 k hk).1 hs
      refine ⟨r.setIfInBounds k (F.mul (gt r k) s), ?_, by simp [h1], ?_⟩
      · simp only [rd_gt (show k < r.size by omega), ok_bind]
        rw [wr_ok (by omega)]
      · intro j hj
        rw [gt_set (by omega)]
        by_cases hjk : j = k
        · subst hjk
          rw [if_pos rfl, if_pos (by omega)]
          refine ⟨m1, ?_⟩
          rw [m2, (h2 j hj).2, if_neg (by omega)]
        · rw [if_neg hjk]
          refine ⟨(h2 j hj).1, ?_⟩
          rw [(h2 j hj).2]
          by_cases c : j < k
          · rw [if_pos c, if_pos (by omega)]
          · rw [if_neg c, if_neg (by omega)])
  refine ⟨r, e, h1, fun j hj => ?_⟩
  have := h2 j hj
  rw [if_pos hj] at this
  exact this

/-- `fft_inv` followed by the scaling undoes `fft` -/
theorem ifft_fft (D : DftField F b q S) {n : Nat} (hn : n ∣ q - 1) {w : K} (hp : IsPrimitiveRoot w n) {v : Nat} (ev : F.invN n = .ok v)
    {fft fft_inv : Array Nat → Array Nat → Res (Array Nat)} (hf : IsDft S fft n w) (hi : IsDft S fft_inv n w⁻¹)
    {out out' x : Array Nat} (ho : out.size = n) (ho' : out'.size = n) (hx : x.size = n) (hv : ∀ j, j < n → S.V (gt x j)) :
    ∃ y, fft out x = .ok y ∧ (fft_inv out' y >>= fun o => scaleIf F v o) = .ok x := by
  have hn0 := D.dvd_pos hn
  obtain ⟨y, ey, y1, y2⟩ := hf out x ho hx hv
  obtain ⟨z, ez, z1, z2⟩ := hi out' y ho' y1 (fun j hj => (y2 j hj).1)
  refine ⟨y, ey, ?_⟩
  rw [ez, ok_bind]
  have hz : ∀ k, k < n → S.φ (gt z k) = (n : K) * S.φ (gt x k) := by
    intro k hk
    rw [(z2 k hk).2]
    have h := dft_dft_inv (K := K) (M := K) hn0 hp (fun j => S.φ (gt x j)) hk
    simp only [dft, smul_eq_mul] at h
    rw [← h]
    exact sum_congr rfl fun j hj => by rw [(y2 j (mem_range.mp hj)).2]
  obtain ⟨v', ev', c1, c2⟩ := D.invN n hn
  rw [ev] at ev'
  obtain rfl : v = v' := Except.ok.inj ev'
  unfold scaleIf
  by_cases hgt : v > 1
  · rw [if_pos hgt]
    obtain ⟨d1, d2⟩ := c2 hgt
    obtain ⟨r, er, r1, r2⟩ := mulScalar_spec (a := z) d1 (fun j hj => (z2 j (by omega)).1)
    rw [er]
    congr 1
    refine gt_ext (by omega) fun j hj => ?_
    have hj' : j < n := by omega
    refine D.full.inj (r2 j (by omega)).1 (hv j hj') ?_
    rw [(r2 j (by omega)).2, hz j hj', mul_comm, ← mul_assoc, d2, one_mul]
  · rw [if_neg hgt]
    show Except.ok z = .ok x
    congr 1
    refine gt_ext (by omega) fun j hj => ?_
    have hj' : j < n := by omega
    refine D.full.inj (z2 j hj').1 (hv j hj') ?_
    rw [hz j hj', c1 (by omega), one_mul]

end Quad
