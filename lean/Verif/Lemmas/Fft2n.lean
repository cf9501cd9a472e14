import Verif.Lemmas.Dft
import Verif.Lemmas.Ring

/-! The loops of the radix-2 transform implement the stages of `Lemmas/Dft`. -/

namespace Quad
open Finset

/-! ### generic loops over pairs -/

section Loops
variable {β : Type} [Inhabited β]

theorem stride_eq {start N step : Nat} (hs : start < step) (hd : step ∣ N) : stride start N step = N / step := by
  obtain ⟨k, rfl⟩ := hd
  have hpos : 0 < step := by omega
  unfold stride
  rw [Nat.mul_div_cancel_left _ hpos]
  cases k with
  | zero =>
    have : step * 0 - start + (step - 1) < step := by simp; omega
    exact Nat.div_eq_of_lt this
  | succ k =>
    have e : step * (k + 1) - start + (step - 1) = (2 * step - 1 - start) + step * k := by
      rw [Nat.mul_add, Nat.mul_one]; omega
    rw [e, Nat.add_mul_div_left _ _ hpos]
    have : (2 * step - 1 - start) / step = 1 := by
      apply Nat.div_eq_of_lt_le <;> omega
    omega

/-- a strided loop whose body rewrites entries `i` and `i + m` -/
theorem pairLoop {f : Nat → Array β → Res (Array β)} {start m step N : Nat} (hm : 0 < m)
    (hlt : start + m < step) (hd : step ∣ N)
    (P P' : Nat → β → Prop) (a : Array β) (ha : a.size = N)
    (hf : ∀ i (c : Array β), i % step = start → i + m < N → c.size = N →
      P i (gt c i) → P (i + m) (gt c (i + m)) →
      ∃ u v, f i c = .ok ((c.setIfInBounds i u).setIfInBounds (i + m) v) ∧ P' i u ∧ P' (i + m) v)
    (hP : ∀ i, i < N → i % step = start ∨ i % step = start + m → P i (gt a i)) :
    ∃ a', forStep start N step a f = .ok a' ∧ a'.size = N ∧
      (∀ i, i < N → i % step = start ∨ i % step = start + m → P' i (gt a' i)) ∧
      (∀ i, i < N → ¬ (i % step = start ∨ i % step = start + m) → gt a' i = gt a i) := by
  have hpos : 0 < step := by omega
  obtain ⟨a', e, hI⟩ := forStep_inv (a := start) (b := N) (st := step) (s := a) (f := f)
    (I := fun t (c : Array β) => c.size = N ∧
      (∀ i, i < N → (i % step = start ∨ i % step = start + m) → i / step < t → P' i (gt c i)) ∧
      (∀ i, i < N → (¬ (i % step = start ∨ i % step = start + m) ∨ t ≤ i / step) → gt c i = gt a i))
    hpos ⟨ha, fun i _ _ h => absurd h (Nat.not_lt_zero _), fun i _ _ => rfl⟩ (by
      rintro t c ht ⟨h1, h2, h3⟩
      set i := start + t * step with hi
      have hmod : i % step = start := by rw [hi, Nat.add_mul_mod_self_right, Nat.mod_eq_of_lt (by omega)]
      have hdiv : i / step = t := by
        rw [hi, Nat.add_mul_div_right _ _ hpos, Nat.div_eq_of_lt (by omega), Nat.zero_add]
      have hmod2 : (i + m) % step = start + m := by
        rw [hi, show start + t * step + m = start + m + t * step by ring, Nat.add_mul_mod_self_right,
          Nat.mod_eq_of_lt hlt]
      have hdiv2 : (i + m) / step = t := by
        rw [hi, show start + t * step + m = start + m + t * step by ring, Nat.add_mul_div_right _ _ hpos,
          Nat.div_eq_of_lt hlt, Nat.zero_add]
      have him : i + m < N := by
        have h := Nat.div_lt_div_of_lt_of_dvd hd ht
        rw [hdiv, ← hdiv2] at h
        by_contra hc
        exact absurd (Nat.div_le_div_right (c := step) (Nat.le_of_not_lt hc)) (by omega)
      have e1 := h3 i ht (Or.inr (by omega))
      have e2 := h3 (i + m) him (Or.inr (by omega))
      obtain ⟨u, v, hfe, hu, hv⟩ := hf i c hmod him h1
        (by rw [e1]; exact hP i ht (Or.inl hmod)) (by rw [e2]; exact hP _ him (Or.inr hmod2))
      have hg : ∀ j, gt ((c.setIfInBounds i u).setIfInBounds (i + m) v) j
          = if j = i + m then v else if j = i then u else gt c j := by
        intro j
        rw [gt_set (by simp; omega), gt_set (by omega)]
      refine ⟨_, hfe, by simp [h1], ?_, ?_⟩
      · intro j hj hcls hjt
        rw [hg]
        by_cases hj1 : j = i + m
        · rw [if_pos hj1, hj1]; exact hv
        · rw [if_neg hj1]
          by_cases hj2 : j = i
          · rw [if_pos hj2, hj2]; exact hu
          · rw [if_neg hj2]
            apply h2 j hj hcls
            by_contra hc
            have hjt' : j / step = t := by omega
            have e3 := Nat.div_add_mod j step
            have e4 := Nat.div_add_mod i step
            rw [hjt'] at e3; rw [hdiv] at e4
            rcases hcls with h | h <;> rw [h] at e3 <;> rw [hmod] at e4 <;> omega
      · intro j hj hcls
        rw [hg, if_neg, if_neg]
        · apply h3 j hj
          rcases hcls with h | h
          · exact Or.inl h
          · exact Or.inr (by omega)
        · rintro rfl; rcases hcls with h | h
          · exact h (Or.inl hmod)
          · omega
        · rintro rfl; rcases hcls with h | h
          · exact h (Or.inr hmod2)
          · omega)
  refine ⟨a', e, hI.1, ?_, ?_⟩
  · intro i hi h
    apply hI.2.1 i hi h
    rw [stride_eq (by omega) hd]
    exact Nat.div_lt_div_of_lt_of_dvd hd hi
  · intro i hi h; exact hI.2.2 i hi (Or.inl h)

/-- a full stage: every `j < m` handles the pairs of its residue class -/
theorem classLoop {body : Nat → Array β → Res (Array β)} {m N : Nat}
    (P' : Nat → β → Prop) (a : Array β) (ha : a.size = N) (hm : 0 < m)
    (hb : ∀ j (c : Array β), j < m → c.size = N → (∀ i, i < N → i % m = j → gt c i = gt a i) →
      ∃ c', body j c = .ok c' ∧ c'.size = N ∧ (∀ i, i < N → i % m = j → P' i (gt c' i)) ∧
        (∀ i, i < N → i % m ≠ j → gt c' i = gt c i)) :
    ∃ a', forN m a body = .ok a' ∧ a'.size = N ∧ ∀ i, i < N → P' i (gt a' i) := by
  obtain ⟨a', e, h1, h2, _⟩ := forN_inv (n := m) (s := a) (f := body)
    (I := fun j (c : Array β) => c.size = N ∧ (∀ i, i < N → i % m < j → P' i (gt c i)) ∧
      (∀ i, i < N → j ≤ i % m → gt c i = gt a i))
    ⟨ha, fun i _ h => absurd h (by omega), fun i _ _ => rfl⟩ (by
      rintro j c hj ⟨h1, h2, h3⟩
      obtain ⟨c', e, s1, s2, s3⟩ := hb j c hj h1 (fun i hi h => h3 i hi (by omega))
      refine ⟨c', e, s1, ?_, ?_⟩
      · intro i hi h
        by_cases hij : i % m = j
        · exact s2 i hi hij
        · rw [s3 i hi hij]; exact h2 i hi (by omega)
      · intro i hi h
        rw [s3 i hi (by omega)]; exact h3 i hi (by omega))
  exact ⟨a', e, h1, fun i hi => h2 i hi (Nat.mod_lt _ hm)⟩

theorem fillRange_spec {a : Array β} {start len : Nat} {x : β} (h : start + len ≤ a.size) :
    ∃ a', Radix2.fillRange a start len x = .ok a' ∧ a'.size = a.size ∧
      ∀ i, gt a' i = if start ≤ i ∧ i < start + len then x else gt a i := by
  refine forN_inv (I := fun k (a' : Array β) => a'.size = a.size ∧
      ∀ i, gt a' i = if start ≤ i ∧ i < start + k then x else gt a i) ?_ ?_
  · refine ⟨rfl, fun i => ?_⟩
    rw [if_neg (by omega)]
  · rintro k s hk ⟨h1, h2⟩
    refine ⟨_, wr_ok (by omega), by simp [h1], ?_⟩
    intro i
    rw [gt_set (by omega), h2]
    by_cases hi : i = start + k
    · rw [if_pos hi, if_pos (by omega)]
    · rw [if_neg hi]
      by_cases hc : start ≤ i ∧ i < start + k
      · rw [if_pos hc, if_pos (by omega)]
      · rw [if_neg hc, if_neg (by omega)]

theorem copyIn_spec {out input : Array β} (h : input.size ≤ out.size) :
    ∃ a', Radix2.copyIn out input = .ok a' ∧ a'.size = out.size ∧
      ∀ i, gt a' i = if i < input.size then gt input i else gt out i := by
  unfold Radix2.copyIn
  refine forN_inv (I := fun k (a' : Array β) => a'.size = out.size ∧
      ∀ i, gt a' i = if i < k then gt input i else gt out i) ?_ ?_
  · simp
  · rintro k s hk ⟨h1, h2⟩
    refine ⟨_, by rw [rd_gt hk, ok_bind]; exact wr_ok (by omega), by simp [h1], ?_⟩
    intro i
    rw [gt_set (by omega), h2]
    by_cases hi : i = k
    · rw [if_pos hi, hi, if_pos (by omega)]
    · rw [if_neg hi]
      by_cases hc : i < k
      · rw [if_pos hc, if_pos (by omega)]
      · rw [if_neg hc, if_neg (by omega)]

theorem swap_spec {a : Array β} {i j : Nat} (hi : i < a.size) (hj : j < a.size) :
    ∃ a', Radix2.swap a i j = .ok a' ∧ a'.size = a.size ∧
      ∀ k, gt a' k = if k = i then gt a j else if k = j then gt a i else gt a k := by
  unfold Radix2.swap
  refine ⟨_, by rw [rd_gt hi, ok_bind, rd_gt hj, ok_bind, wr_ok hi, ok_bind, wr_ok (by simpa using hj)], by simp, ?_⟩
  intro k
  rw [gt_set (by simpa using hj), gt_set hi]
  by_cases h1 : k = j <;> by_cases h2 : k = i
  · subst h1; subst h2; simp
  · rw [if_pos h1, if_neg h2, if_pos h1]
  · rw [if_neg h1, if_pos h2, if_pos h2]
  · rw [if_neg h1, if_neg h2, if_neg h2, if_neg h1]

theorem bit_rev_permute_spec {R : Radix2} {L : Nat} (hn : R.n = 2 ^ L) (hrs : R.rev.size = 2 ^ L)
    (hr : ∀ i, i < 2 ^ L → gt R.rev i = bitrev L i) (a : Array β) (ha : a.size = 2 ^ L) :
    ∃ a', R.bit_rev_permute a = .ok a' ∧ a'.size = 2 ^ L ∧
      ∀ i, i < 2 ^ L → gt a' i = gt a (bitrev L i) := by
  unfold Radix2.bit_rev_permute
  rw [hn]
  obtain ⟨a', e, h1, h2⟩ := forN_inv (n := 2 ^ L) (s := a)
    (f := fun i a => do
      let r ← rd R.rev i
      if r < i then Radix2.swap a i r else pure a)
    (I := fun k (c : Array β) => c.size = 2 ^ L ∧
      ∀ i, i < 2 ^ L → gt c i = if i < k ∧ bitrev L i < k then gt a (bitrev L i) else gt a i)
    ⟨ha, fun i _ => by rw [if_neg (by omega)]⟩ (by
      rintro k c hk ⟨h1, h2⟩
      have hrk := bitrev_lt L k
      have hrr := bitrev_bitrev L k hk
      simp only [rd_gt (show k < R.rev.size by omega), ok_bind, hr k hk]
      have inj : ∀ i, i < 2 ^ L → bitrev L i = k → i = bitrev L k := by
        intro i hi h; rw [← h, bitrev_bitrev L i hi]
      split
      · rename_i hlt
        obtain ⟨c', e, s1, s2⟩ := swap_spec (a := c) (i := k) (j := bitrev L k) (by omega) (by omega)
        refine ⟨c', e, by omega, ?_⟩
        intro i hi
        rw [s2]
        by_cases hik : i = k
        · subst hik
          rw [if_pos rfl, if_pos (by omega), h2 _ hrk, if_neg (by omega)]
        · rw [if_neg hik]
          by_cases hir : i = bitrev L k
          · rw [if_pos hir, hir, hrr, if_pos (by omega), h2 k hk, if_neg (by omega)]
          · rw [if_neg hir, h2 i hi]
            have : bitrev L i ≠ k := fun h => hir (inj i hi h)
            by_cases hc : i < k ∧ bitrev L i < k
            · rw [if_pos hc, if_pos (by omega)]
            · rw [if_neg hc, if_neg (by omega)]
      · rename_i hlt
        refine ⟨c, rfl, h1, ?_⟩
        intro i hi
        rw [h2 i hi]
        by_cases hc : i < k ∧ bitrev L i < k
        · rw [if_pos hc, if_pos (by omega)]
        · rw [if_neg hc]
          by_cases hc' : i < k + 1 ∧ bitrev L i < k + 1
          · rw [if_pos hc']
            by_cases hik : i = k
            · subst hik
              have : bitrev L i = i := by omega
              rw [this]
            · exfalso
              have h3 : bitrev L i = k := by omega
              have := inj i hi h3
              omega
          · rw [if_neg hc'])
  refine ⟨a', e, h1, fun i hi => ?_⟩
  rw [h2 i hi, if_pos ⟨hi, bitrev_lt L i⟩]

end Loops

/-! ### cells -/

/-- The butterflies on cells of type `β` are those of the vector space `M`
through `π`.  `G` is the shape a cell must have for the accesses to be in range. -/
structure CellSim {β : Type} (C : Cell β) {F : GF} {K : Type} [Field K] (S : F.Sim K)
    (M : Type) [AddCommGroup M] [Module K M] where
  G : β → Prop
  V : β → Prop
  π : β → M
  shape : ∀ {a}, V a → G a
  zero : V C.zero ∧ π C.zero = 0
  ct : ∀ {r a b}, S.V r → V a → V b → ∃ u v, C.ct r a b = .ok (u, v) ∧ V u ∧ V v ∧
    π u = π a + S.φ r • π b ∧ π v = π a - S.φ r • π b
  gs : ∀ {r a b}, S.V r → V a → V b → ∃ u v, C.gs r a b = .ok (u, v) ∧ V u ∧ V v ∧
    π u = π a + π b ∧ π v = S.φ r • (π a - π b)
  gsSimple : ∀ {r a b}, G a → G b → ∃ v, C.gsSimple r a b = .ok v ∧ G v ∧
    (S.V r → V a → V v ∧ π v = S.φ r • π a)

/-- in-place scaling of a cell is scaling -/
def CellSim.Scales {β : Type} {C : Cell β} {F : GF} {K : Type} [Field K] {S : F.Sim K}
    {M : Type} [AddCommGroup M] [Module K M] (cs : CellSim C S M) (c : Nat) : Prop :=
  ∀ {a}, cs.V a → ∃ u, C.scale c a = .ok u ∧ cs.V u ∧ cs.π u = S.φ c • cs.π a

section Main
variable {β : Type} [Inhabited β] {C : Cell β} {F : GF} {K : Type} [Field K] {S : F.Sim K}
  {M : Type} [AddCommGroup M] [Module K M]

/-- cell `b` holds the value `x` -/
def CellSim.Holds (cs : CellSim C S M) (x : M) (b : β) : Prop := cs.V b ∧ cs.π b = x

/-- the array holds the values `x 0 .. x (N-1)` -/
def CellSim.Arr (cs : CellSim C S M) (N : Nat) (a : Array β) (x : Nat → M) : Prop :=
  a.size = N ∧ ∀ i, i < N → cs.Holds (x i) (gt a i)

/-- the tables of the object are what the constructor fills in -/
structure Radix2.Good (R : Radix2) (S : R.F.Sim K) (L : Nat) : Prop where
  n : R.n = 2 ^ L
  revSize : R.rev.size = 2 ^ L
  rev : ∀ i, i < 2 ^ L → gt R.rev i = bitrev L i
  WSize : R.W.size = 2 ^ L
  W : ∀ i, i < 2 ^ L → S.V (gt R.W i) ∧ S.φ (gt R.W i) = S.φ R.w ^ i
  invWSize : R.inv_W.size = 2 ^ L
  invW : ∀ i, i < 2 ^ L → S.V (gt R.inv_W i) ∧ S.φ (gt R.inv_W i) = (S.φ R.w)⁻¹ ^ i
  root : IsPrimitiveRoot (S.φ R.w) (2 ^ L)

variable {R : Radix2} {S : R.F.Sim K} {L : Nat} (hG : R.Good S L) (cs : CellSim C S M)

theorem two_pow_mul_div {L s j : Nat} (hs : s ≤ L) : j * 2 ^ L / 2 ^ s = j * 2 ^ (L - s) := by
  have : 2 ^ L = 2 ^ (L - s) * 2 ^ s := by rw [← pow_add]; congr 1; omega
  rw [this, ← mul_assoc, Nat.mul_div_cancel _ (by positivity)]

theorem two_pow_div {L s : Nat} (hs : s ≤ L) : 2 ^ L / 2 ^ s = 2 ^ (L - s) :=
  Nat.pow_div hs (by omega)

theorem idx_lt {L s j : Nat} (hs : s ≤ L) (hj : j < 2 ^ s) : j * 2 ^ (L - s) < 2 ^ L := by
  have : 2 ^ L = 2 ^ s * 2 ^ (L - s) := by rw [← pow_add]; congr 1; omega
  rw [this]; exact Nat.mul_lt_mul_of_pos_right hj (by positivity)

theorem mod_half {i m j : Nat} (hj : j < m) : i % m = j ↔ (i % (2 * m) = j ∨ i % (2 * m) = j + m) := by
  have h1 : i % (2 * m) % m = i % m := Nat.mod_mod_of_dvd _ (Dvd.intro_left 2 rfl)
  have h2 : i % (2 * m) < 2 * m := Nat.mod_lt _ (by omega)
  rw [← h1]
  by_cases h : i % (2 * m) < m
  · rw [Nat.mod_eq_of_lt h]; omega
  · rw [Nat.mod_eq_sub_mod (by omega), Nat.mod_eq_of_lt (by omega)]; omega

omit [AddCommGroup M] [Module K M] in
theorem mod_add_lt {i s q m : Nat} (h : i % s = q) (hq : q + m < s) : (i + m) % s = q + m := by
  rw [Nat.add_mod, h, Nat.mod_eq_of_lt (show m < s by omega), Nat.mod_eq_of_lt hq]

/-- the body of a Cooley-Tukey loop, on held values -/
theorem ctPair_spec {r i m N : Nat} {x y : M} (hr : S.V r) (hm : 0 < m) (c : Array β) (hc : c.size = N)
    (hi : i + m < N) (h1 : cs.Holds x (gt c i)) (h2 : cs.Holds y (gt c (i + m))) :
    ∃ u v, Radix2.ctPair C r m i c = .ok ((c.setIfInBounds i u).setIfInBounds (i + m) v) ∧
      cs.Holds (x + S.φ r • y) u ∧ cs.Holds (x - S.φ r • y) v := by
  obtain ⟨u, v, e, hu, hv, pu, pv⟩ := cs.ct hr h1.1 h2.1
  refine ⟨u, v, ?_, ⟨hu, by rw [pu, h1.2, h2.2]⟩, ⟨hv, by rw [pv, h1.2, h2.2]⟩⟩
  unfold Radix2.ctPair
  rw [rd_gt (by omega), ok_bind, rd_gt (by omega), ok_bind, e, ok_bind]
  simp only
  rw [wr_ok (by omega), ok_bind, wr_ok (by simp; omega)]

theorem gsPair_spec {r i m N : Nat} {x y : M} (hr : S.V r) (hm : 0 < m) (c : Array β) (hc : c.size = N)
    (hi : i + m < N) (h1 : cs.Holds x (gt c i)) (h2 : cs.Holds y (gt c (i + m))) :
    ∃ u v, Radix2.gsPair C r m i c = .ok ((c.setIfInBounds i u).setIfInBounds (i + m) v) ∧
      cs.Holds (x + y) u ∧ cs.Holds (S.φ r • (x - y)) v := by
  obtain ⟨u, v, e, hu, hv, pu, pv⟩ := cs.gs hr h1.1 h2.1
  refine ⟨u, v, ?_, ⟨hu, by rw [pu, h1.2, h2.2]⟩, ⟨hv, by rw [pv, h1.2, h2.2]⟩⟩
  unfold Radix2.gsPair
  rw [rd_gt (by omega), ok_bind, rd_gt (by omega), ok_bind, e, ok_bind]
  simp only
  rw [wr_ok (by omega), ok_bind, wr_ok (by simp; omega)]

theorem two_mul_dvd {L s : Nat} (hs : s < L) : 2 * 2 ^ s ∣ 2 ^ L := by
  rw [show 2 * 2 ^ s = 2 ^ (s + 1) by rw [pow_succ]; ring]
  exact pow_dvd_pow 2 (by omega)

include hG in
theorem ctStage_spec {s : Nat} (hs : s < L) {a : Array β} {x : Nat → M} (ha : cs.Arr (2 ^ L) a x) :
    ∃ a', R.ctStage C (2 ^ s) a = .ok a' ∧ cs.Arr (2 ^ L) a' (ctLayer (S.φ R.w) L s x) := by
  have h2m : 2 * 2 ^ s = 2 ^ (s + 1) := by rw [pow_succ]; ring
  unfold Radix2.ctStage
  rw [hG.n]
  have hmpos : 0 < 2 ^ s := by positivity
  refine classLoop (P' := fun i b => cs.Holds (ctLayer (S.φ R.w) L s x i) b) a ha.1 hmpos ?_
  intro j c hj hc hca
  have hidx : j * (2 ^ L / (2 * 2 ^ s)) = j * 2 ^ (L - (s + 1)) := by rw [h2m, two_pow_div (by omega)]
  have hlt : j * 2 ^ (L - (s + 1)) < 2 ^ L := idx_lt (by omega) (by omega)
  simp only [hidx]
  rw [rd_gt (by rw [hG.WSize]; exact hlt), ok_bind]
  obtain ⟨hV, hφ⟩ := hG.W _ hlt
  obtain ⟨c', e, s1, s2, s3⟩ := pairLoop (f := fun i a => Radix2.ctPair C (gt R.W (j * 2 ^ (L - (s + 1)))) (2 ^ s) i a)
    (start := j) (m := 2 ^ s) (step := 2 * 2 ^ s) (N := 2 ^ L) hmpos (by omega) (two_mul_dvd hs)
    (fun i b => cs.Holds (x i) b) (fun i b => cs.Holds (ctLayer (S.φ R.w) L s x i) b) c hc
    (by
      intro i c hi him hcs h1 h2
      obtain ⟨u, v, e, hu, hv⟩ := ctPair_spec cs hV hmpos c hcs him h1 h2
      refine ⟨u, v, e, ?_, ?_⟩
      · simp only [ctLayer]
        rw [← h2m, hi, if_pos hj]
        rw [hφ] at hu; exact hu
      · simp only [ctLayer]
        rw [← h2m, mod_add_lt hi (by omega), if_neg (by omega)]
        rw [hφ] at hv
        rw [show L - s - 1 = L - (s + 1) by omega]
        simpa using hv)
    (by
      intro i hi h
      rw [hca i hi ((mod_half hj).mpr h)]
      exact ha.2 i hi)
  exact ⟨c', e, s1, fun i hi h => s2 i hi ((mod_half hj).mp h),
    fun i hi h => s3 i hi (fun h' => h ((mod_half hj).mpr h'))⟩

include hG in
theorem ctStages_spec (x : Nat → M) : ∀ (k fuel : Nat) (a : Array β), k ≤ L → k < fuel →
    cs.Arr (2 ^ L) a (ditState (S.φ R.w) L (L - k) x) →
    ∃ a', R.ctStages C fuel (2 ^ (L - k)) a = .ok a' ∧ cs.Arr (2 ^ L) a' (dft (S.φ R.w) (2 ^ L) x) := by
  intro k
  induction k with
  | zero =>
    intro fuel a _ hf ha
    obtain ⟨f, rfl⟩ : ∃ f, fuel = f + 1 := ⟨fuel - 1, by omega⟩
    rw [Radix2.ctStages, hG.n, Nat.sub_zero, if_neg (lt_irrefl _)]
    exact ⟨a, rfl, ha.1, fun i hi => by rw [← dit_final x hi]; exact ha.2 i hi⟩
  | succ k ih =>
    intro fuel a hk hf ha
    obtain ⟨f, rfl⟩ : ∃ f, fuel = f + 1 := ⟨fuel - 1, by omega⟩
    have hlt : 2 ^ (L - (k + 1)) < 2 ^ L := Nat.pow_lt_pow_right (by omega) (by omega)
    obtain ⟨a1, e1, h1⟩ := ctStage_spec hG cs (s := L - (k + 1)) (by omega) ha
    rw [Radix2.ctStages, if_pos (by rw [hG.n]; exact hlt), e1, ok_bind]
    have e2 : 2 * 2 ^ (L - (k + 1)) = 2 ^ (L - k) := by
      rw [show L - k = L - (k + 1) + 1 by omega, pow_succ]; ring
    rw [e2]
    apply ih f a1 (by omega) (by omega)
    refine ⟨h1.1, fun i hi => ?_⟩
    have := h1.2 i hi
    rwa [dit_step (by omega) (pow_half (by omega) hG.root), show L - (k + 1) + 1 = L - k by omega] at this

/-- the input extended by zeros -/
def CellSim.ext (cs : CellSim C S M) (input : Array β) (j : Nat) : M :=
  if j < input.size then cs.π (gt input j) else 0

include hG in
theorem scatter_spec {d : Nat} (hd : d ≤ L) {out input : Array β} (hout : out.size = 2 ^ L)
    (hK : (if input.size > R.data_len then input.size else R.data_len) = 2 ^ d)
    (hin : ∀ j, j < input.size → cs.V (gt input j)) :
    ∃ g a', R.groupLen input.size = .ok g ∧ g = 2 ^ (L - d) ∧ R.scatter C g out input = .ok a' ∧
      cs.Arr (2 ^ L) a' (ditState (S.φ R.w) L (L - d) (cs.ext input)) := by
  have hKpos : 0 < 2 ^ d := by positivity
  have hdL : 2 ^ d ≤ 2 ^ L := Nat.pow_le_pow_right (by omega) hd
  have hle1 : input.size ≤ 2 ^ d := by rw [← hK]; split <;> omega
  have hle2 : R.data_len ≤ 2 ^ d := by rw [← hK]; split <;> omega
  refine ⟨2 ^ (L - d), ?_⟩
  set g := 2 ^ (L - d) with hg
  have hgpos : 0 < g := by positivity
  have hNg : 2 ^ L = 2 ^ d * g := by rw [hg, ← pow_add]; congr 1; omega
  have hgl : R.groupLen input.size = .ok g := by
    unfold Radix2.groupLen
    simp only [hK, hG.n]
    rw [if_neg (by omega), two_pow_div hd]
  -- position of index idx
  have hpos : ∀ idx, idx < 2 ^ d → gt R.rev idx = g * bitrev d idx := by
    intro idx h
    rw [hG.rev idx (by omega), hg, ← bitrev_short _ _ _ h, show L - d + d = L by omega]
  have hrange : ∀ idx, idx < 2 ^ d → g * bitrev d idx + g ≤ 2 ^ L := by
    intro idx h
    have := bitrev_lt d idx
    calc g * bitrev d idx + g = g * (bitrev d idx + 1) := by ring
      _ ≤ g * 2 ^ d := Nat.mul_le_mul_left _ this
      _ = 2 ^ L := by rw [hNg]; ring
  have hmem : ∀ idx i, idx < 2 ^ d → i < 2 ^ L →
      ((g * bitrev d idx ≤ i ∧ i < g * bitrev d idx + g) ↔ bitrev d (i / g) = idx) := by
    intro idx i h hi
    have hidiv : i / g < 2 ^ d := by rw [Nat.div_lt_iff_lt_mul hgpos]; omega
    constructor
    · rintro ⟨h1, h2⟩
      have : i / g = bitrev d idx := by
        apply Nat.div_eq_of_lt_le
        · rw [mul_comm]; exact h1
        · rw [Nat.add_mul, mul_comm (bitrev d idx)]; omega
      rw [this, bitrev_bitrev d idx h]
    · intro h1
      have : bitrev d idx = i / g := by rw [← h1, bitrev_bitrev d _ hidiv]
      rw [this]
      exact ⟨Nat.mul_div_le i g, by have := Nat.lt_mul_div_succ i hgpos; rwa [Nat.mul_add, Nat.mul_one] at this⟩
  -- first loop
  obtain ⟨o1, e1, s1, p1⟩ := forN_inv (n := input.size) (s := out)
    (f := fun idx out => do
      let a ← rd input idx
      let r ← rd R.rev idx
      Radix2.fillRange out r g a)
    (I := fun k (c : Array β) => c.size = 2 ^ L ∧ ∀ i, i < 2 ^ L → bitrev d (i / g) < k →
      gt c i = gt input (bitrev d (i / g)))
    ⟨hout, fun i _ h => absurd h (by omega)⟩
    (by
      rintro k c hk ⟨h1, h2⟩
      rw [rd_gt hk, ok_bind, rd_gt (by rw [hG.revSize]; omega), ok_bind, hpos k (by omega)]
      obtain ⟨c', e, t1, t2⟩ := fillRange_spec (a := c) (start := g * bitrev d k) (len := g)
        (x := gt input k) (by rw [h1]; exact hrange k (by omega))
      refine ⟨c', e, by omega, ?_⟩
      intro i hi hlt
      rw [t2]
      by_cases hc : bitrev d (i / g) = k
      · rw [if_pos ((hmem k i (by omega) hi).mpr hc), hc]
      · rw [if_neg (fun h => hc ((hmem k i (by omega) hi).mp h))]
        exact h2 i hi (by omega))
  -- second loop
  obtain ⟨o2, e2, s2, p2⟩ := forStep_inv (a := input.size) (b := R.data_len) (st := 1) (s := o1)
    (f := fun idx out => do
      let r ← rd R.rev idx
      Radix2.fillRange out r g C.zero)
    (I := fun k (c : Array β) => c.size = 2 ^ L ∧
      ∀ i, i < 2 ^ L → bitrev d (i / g) < input.size + k →
      gt c i = if bitrev d (i / g) < input.size then gt input (bitrev d (i / g)) else C.zero)
    (by omega)
    ⟨s1, fun i hi h => by rw [if_pos (by omega)]; exact p1 i hi (by omega)⟩
    (by
      rintro k c hk ⟨h1, h2⟩
      have hk' : input.size + k * 1 = input.size + k := by ring
      rw [hk'] at hk ⊢
      rw [rd_gt (by rw [hG.revSize]; omega), ok_bind, hpos _ (by omega)]
      obtain ⟨c', e, t1, t2⟩ := fillRange_spec (a := c) (start := g * bitrev d (input.size + k)) (len := g)
        (x := C.zero) (by rw [h1]; exact hrange _ (by omega))
      refine ⟨c', e, by omega, ?_⟩
      intro i hi hlt
      rw [t2]
      by_cases hc : bitrev d (i / g) = input.size + k
      · rw [if_pos ((hmem _ i (by omega) hi).mpr hc), if_neg (by omega)]
      · rw [if_neg (fun h => hc ((hmem _ i (by omega) hi).mp h))]
        exact h2 i hi (by omega))
  refine ⟨o2, hgl, rfl, ?_, s2, ?_⟩
  · unfold Radix2.scatter
    rw [e1, ok_bind]; exact e2
  · intro i hi
    have hrl := bitrev_lt d (i / g)
    have hst : bitrev d (i / g) < input.size + stride input.size R.data_len 1 := by
      unfold stride; simp
      rw [← hK] at hrl
      split at hrl <;> omega
    have h1 := p2 i hi hst
    rw [dit_start]
    · rw [show L - (L - d) = d by omega, ← hg]
      unfold CellSim.ext CellSim.Holds
      rw [h1]
      split
      · rename_i h; exact ⟨hin _ h, rfl⟩
      · exact cs.zero
    · intro j hj
      rw [show L - (L - d) = d by omega] at hj
      unfold CellSim.ext; rw [if_neg (by omega)]

include hG in
/-- `fft(Vector)` -/
theorem fftG_spec {d : Nat} (hd : d ≤ L) {out input : Array β} (hout : out.size = 2 ^ L)
    (hK : (if input.size > R.data_len then input.size else R.data_len) = 2 ^ d)
    (hin : ∀ j, j < input.size → cs.V (gt input j)) :
    ∃ a', R.fftG C out input = .ok a' ∧ cs.Arr (2 ^ L) a' (dft (S.φ R.w) (2 ^ L) (cs.ext input)) := by
  obtain ⟨g, a1, e1, e2, e3, h1⟩ := scatter_spec hG cs hd hout hK hin
  unfold Radix2.fftG
  rw [e1, ok_bind, e3, ok_bind, e2]
  exact ctStages_spec hG cs (cs.ext input) d (R.n + 1) a1 hd
    (by rw [hG.n]; have := Nat.lt_two_pow_self (n := L); omega) h1

/-! ### two layers at a time -/

theorem ctStep_spec {r start m step N : Nat} (hN : R.n = N) (hr : S.V r) (hm : 0 < m) (hlt : start + m < step)
    (hd : step ∣ N) {c : Array β} (hc : c.size = N) {x x' : Nat → M}
    (hx : ∀ i, i < N → i % step = start ∨ i % step = start + m → cs.Holds (x i) (gt c i))
    (hx' : ∀ i, i % step = start → x' i = x i + S.φ r • x (i + m) ∧ x' (i + m) = x i - S.φ r • x (i + m)) :
    ∃ c', R.ctStep C r start m step c = .ok c' ∧ c'.size = N ∧
      (∀ i, i < N → i % step = start ∨ i % step = start + m → cs.Holds (x' i) (gt c' i)) ∧
      (∀ i, i < N → ¬ (i % step = start ∨ i % step = start + m) → gt c' i = gt c i) := by
  unfold Radix2.ctStep
  rw [hN]
  refine pairLoop hm hlt hd (fun i b => cs.Holds (x i) b) (fun i b => cs.Holds (x' i) b) c hc ?_ hx
  intro i c hi him hcs h1 h2
  obtain ⟨u, v, e, hu, hv⟩ := ctPair_spec cs hr hm c hcs him h1 h2
  exact ⟨u, v, e, by rw [(hx' i hi).1]; exact hu, by rw [(hx' i hi).2]; exact hv⟩

theorem mod_quarter {i m j : Nat} (hj : j < m) :
    i % m = j ↔ (i % (4 * m) = j ∨ i % (4 * m) = j + m ∨ i % (4 * m) = j + 2 * m ∨ i % (4 * m) = j + 3 * m) := by
  have h4 : 4 * m = 2 * (2 * m) := by ring
  rw [mod_half hj, mod_half (show j < 2 * m by omega), mod_half (show j + m < 2 * m by omega), ← h4]
  omega

include hG in
theorem ctTwo_spec {s : Nat} (hs : s + 1 < L) {a : Array β} {x : Nat → M} (ha : cs.Arr (2 ^ L) a x) :
    ∃ a', forN (2 ^ s) a (fun j a => R.ctTwoLayers C j (2 ^ s) a) = .ok a' ∧
      cs.Arr (2 ^ L) a' (ctLayer (S.φ R.w) L (s + 1) (ctLayer (S.φ R.w) L s x)) := by
  set m := 2 ^ s with hm
  have h2m : 2 ^ (s + 1) = 2 * m := by rw [pow_succ]; ring
  have h4m : 2 ^ (s + 1 + 1) = 4 * m := by rw [pow_succ, h2m]; ring
  have hmpos : 0 < m := by positivity
  have hd4 : 4 * m ∣ 2 ^ L := by rw [← h4m]; exact pow_dvd_pow 2 (by omega)
  set x1 := ctLayer (S.φ R.w) L s x with hx1
  set x2 := ctLayer (S.φ R.w) L (s + 1) x1 with hx2
  refine classLoop (P' := fun i b => cs.Holds (x2 i) b) a ha.1 hmpos ?_
  intro j c hj hc hca
  have hc0 : ∀ i, i < 2 ^ L → i % m = j → cs.Holds (x i) (gt c i) := by
    intro i hi h; rw [hca i hi h]; exact ha.2 i hi
  -- table indices
  have i1 : j * R.n / m / 2 = j * 2 ^ (L - (s + 1)) := by
    rw [hG.n, Nat.div_div_eq_div_mul, show m * 2 = 2 ^ (s + 1) by rw [h2m]; ring, two_pow_mul_div (by omega)]
  have i2 : ∀ t, t * R.n / m / 4 = t * 2 ^ (L - (s + 1 + 1)) := by
    intro t
    rw [hG.n, Nat.div_div_eq_div_mul, show m * 4 = 2 ^ (s + 1 + 1) by rw [h4m]; ring, two_pow_mul_div (by omega)]
  have l1 : j * 2 ^ (L - (s + 1)) < 2 ^ L := idx_lt (by omega) (by omega)
  have l2 : j * 2 ^ (L - (s + 1 + 1)) < 2 ^ L := idx_lt (by omega) (by omega)
  have l3 : (j + m) * 2 ^ (L - (s + 1 + 1)) < 2 ^ L := idx_lt (by omega) (by omega)
  obtain ⟨v1, f1⟩ := hG.W _ l1
  obtain ⟨v2, f2⟩ := hG.W _ l2
  obtain ⟨v3, f3⟩ := hG.W _ l3
  have m24 : ∀ i q, i % (4 * m) = q → i % (2 * m) = q % (2 * m) := by
    intro i q h; rw [← h, Nat.mod_mod_of_dvd _ (Dvd.intro_left 2 (by ring))]
  -- value of the first layer on a pair
  have lay1 : ∀ i, i % (2 * m) = j →
      x1 i = x i + S.φ (gt R.W (j * 2 ^ (L - (s + 1)))) • x (i + m) ∧
      x1 (i + m) = x i - S.φ (gt R.W (j * 2 ^ (L - (s + 1)))) • x (i + m) := by
    intro i h
    rw [hx1]; simp only [ctLayer]
    rw [h2m, h, mod_add_lt h (by omega), ← hm, if_pos hj, if_neg (by omega), f1]
    simp [Nat.sub_sub]
  have lay2 : ∀ i q, i % (4 * m) = q → q < 2 * m → ∀ wv, S.φ wv = S.φ R.w ^ (q * 2 ^ (L - (s + 1 + 1))) →
      x2 i = x1 i + S.φ wv • x1 (i + 2 * m) ∧ x2 (i + 2 * m) = x1 i - S.φ wv • x1 (i + 2 * m) := by
    intro i q h hq wv hwv
    rw [hx2]; simp only [ctLayer]
    rw [h4m, h, h2m, mod_add_lt h (by omega), if_pos hq, if_neg (by omega), hwv]
    simp [Nat.sub_sub]
  simp only [Radix2.ctTwoLayers]
  rw [i1, i2, i2, rd_gt (by rw [hG.WSize]; exact l1), ok_bind]
  -- layer one, both halves
  obtain ⟨c1, e1, z1, p1, q1⟩ := ctStep_spec cs (r := gt R.W (j * 2 ^ (L - (s + 1)))) (start := j) (m := m)
    (step := 4 * m) hG.n v1 hmpos (by omega) hd4 hc (x := x) (x' := x1)
    (fun i hi h => hc0 i hi ((mod_quarter hj).mpr (by omega)))
    (fun i h => lay1 i (by rw [m24 i j h, Nat.mod_eq_of_lt (by omega)]))
  rw [e1, ok_bind]
  obtain ⟨c2, e2, z2, p2, q2⟩ := ctStep_spec cs (r := gt R.W (j * 2 ^ (L - (s + 1)))) (start := j + 2 * m) (m := m)
    (step := 4 * m) hG.n v1 hmpos (by omega) hd4 z1 (x := x) (x' := x1)
    (fun i hi h => by
      rw [q1 i hi (by omega)]; exact hc0 i hi ((mod_quarter hj).mpr (by omega)))
    (fun i h => lay1 i (by
      rw [m24 i _ h, show j + 2 * m = j + (2 * m) * 1 by ring, Nat.add_mul_mod_self_left, Nat.mod_eq_of_lt (by omega)]))
  rw [e2, ok_bind]
  have hL1 : ∀ i, i < 2 ^ L → i % m = j → cs.Holds (x1 i) (gt c2 i) := by
    intro i hi h
    rcases (mod_quarter hj).mp h with h' | h' | h' | h'
    · rw [q2 i hi (by omega)]; exact p1 i hi (by omega)
    · rw [q2 i hi (by omega)]; exact p1 i hi (by omega)
    · exact p2 i hi (by omega)
    · exact p2 i hi (by omega)
  rw [rd_gt (by rw [hG.WSize]; exact l2), ok_bind]
  obtain ⟨c3, e3, z3, p3, q3⟩ := ctStep_spec cs (r := gt R.W (j * 2 ^ (L - (s + 1 + 1)))) (start := j) (m := 2 * m)
    (step := 4 * m) hG.n v2 (by omega) (by omega) hd4 z2 (x := x1) (x' := x2)
    (fun i hi h => hL1 i hi ((mod_quarter hj).mpr (by omega)))
    (fun i h => lay2 i j h (by omega) _ f2)
  rw [e3, ok_bind, rd_gt (by rw [hG.WSize]; exact l3), ok_bind]
  obtain ⟨c4, e4, z4, p4, q4⟩ := ctStep_spec cs (r := gt R.W ((j + m) * 2 ^ (L - (s + 1 + 1)))) (start := j + m)
    (m := 2 * m) (step := 4 * m) hG.n v3 (by omega) (by omega) hd4 z3 (x := x1) (x' := x2)
    (fun i hi h => by rw [q3 i hi (by omega)]; exact hL1 i hi ((mod_quarter hj).mpr (by omega)))
    (fun i h => lay2 i (j + m) h (by omega) _ f3)
  refine ⟨c4, e4, z4, ?_, ?_⟩
  · intro i hi h
    rcases (mod_quarter hj).mp h with h' | h' | h' | h'
    · rw [q4 i hi (by omega)]; exact p3 i hi (by omega)
    · exact p4 i hi (by omega)
    · rw [q4 i hi (by omega)]; exact p3 i hi (by omega)
    · exact p4 i hi (by omega)
  · intro i hi h
    have hn : ¬ (i % (4 * m) = j ∨ i % (4 * m) = j + m ∨ i % (4 * m) = j + 2 * m ∨ i % (4 * m) = j + 3 * m) :=
      fun h' => h ((mod_quarter hj).mpr h')
    rw [q4 i hi (by omega), q3 i hi (by omega), q2 i hi (by omega), q1 i hi (by omega)]

include hG in
theorem ctTwoStages_spec (x : Nat → M) : ∀ (k fuel : Nat) (a : Array β), k ≤ L → k < fuel →
    cs.Arr (2 ^ L) a (ditState (S.φ R.w) L (L - k) x) →
    ∃ k' a', k' < 2 ∧ k' ≤ L ∧ R.ctTwoStages C fuel (2 ^ (L - k)) a = .ok (2 ^ (L - k'), a') ∧
      cs.Arr (2 ^ L) a' (ditState (S.φ R.w) L (L - k') x) := by
  intro k
  induction k using Nat.strong_induction_on with
  | _ k ih =>
    intro fuel a hk hf ha
    obtain ⟨f, rfl⟩ : ∃ f, fuel = f + 1 := ⟨fuel - 1, by omega⟩
    rw [Radix2.ctTwoStages, hG.n]
    by_cases hk2 : k < 2
    · refine ⟨k, a, hk2, hk, ?_, ha⟩
      rw [if_neg]
      have : 2 ^ L / 2 ≤ 2 ^ (L - 1) := by
        cases L with
        | zero => simp
        | succ n => simp [pow_succ]
      have : 2 ^ (L - 1) ≤ 2 ^ (L - k) := Nat.pow_le_pow_right (by omega) (by omega)
      omega
    · have hlt : 2 ^ (L - k) < 2 ^ L / 2 := by
        rw [show 2 ^ L / 2 = 2 ^ (L - 1) by
          rw [show L = (L - 1) + 1 by omega, pow_succ]; simp]
        exact Nat.pow_lt_pow_right (by omega) (by omega)
      rw [if_pos hlt]
      obtain ⟨a1, e1, h1⟩ := ctTwo_spec hG cs (s := L - k) (by omega) ha
      rw [e1, ok_bind]
      have e4 : 4 * 2 ^ (L - k) = 2 ^ (L - (k - 2)) := by
        rw [show L - (k - 2) = L - k + 2 by omega, pow_add]; ring
      rw [e4]
      apply ih (k - 2) (by omega) f a1 (by omega) (by omega)
      refine ⟨h1.1, fun i hi => ?_⟩
      have h2 := h1.2 i hi
      have hhalf := pow_half (K := K) (by omega) hG.root
      have : ctLayer (S.φ R.w) L (L - k) (ditState (S.φ R.w) L (L - k) x) = ditState (S.φ R.w) L (L - k + 1) x :=
        funext fun i => dit_step (by omega) hhalf x i
      rw [this, dit_step (by omega) hhalf, show L - k + 1 + 1 = L - (k - 2) by omega] at h2
      exact h2

include hG in
/-- `fft(Buffers)` -/
theorem fftBufG_spec {d : Nat} (hd : d ≤ L) {out input : Array β} (hout : out.size = 2 ^ L)
    (hin0 : 0 < input.size) (hdl : 0 < R.data_len)
    (hK : (if input.size > R.data_len then input.size else R.data_len) = 2 ^ d)
    (hin : ∀ j, j < input.size → cs.V (gt input j)) :
    ∃ a', R.fftBufG C out input = .ok a' ∧ cs.Arr (2 ^ L) a' (dft (S.φ R.w) (2 ^ L) (cs.ext input)) := by
  obtain ⟨g, a1, e1, e2, e3, h1⟩ := scatter_spec hG cs hd hout hK hin
  obtain ⟨k', a2, k1, k2, e4, h2⟩ := ctTwoStages_spec hG cs (cs.ext input) d (R.n + 1) a1 hd
    (by rw [hG.n]; have := Nat.lt_two_pow_self (n := L); omega) h1
  unfold Radix2.fftBufG
  simp only [cassert, hin0, hdl, decide_true, if_true, ok_bind]
  rw [e1, ok_bind, e3, ok_bind, e2, e4, ok_bind]
  simp only
  rw [hG.n]
  interval_cases k'
  · rw [Nat.sub_zero, if_neg (lt_irrefl _)]
    exact ⟨a2, rfl, h2.1, fun i hi => by rw [← dit_final _ hi]; exact h2.2 i hi⟩
  · have hlt : 2 ^ (L - 1) < 2 ^ L := Nat.pow_lt_pow_right (by omega) (by omega)
    have hhalf : 2 ^ (L - 1) = 2 ^ L / 2 := by
      conv_rhs => rw [show L = (L - 1) + 1 by omega, pow_succ]
      simp
    rw [if_pos hlt]
    simp only [hhalf, decide_true, if_true, ok_bind]
    rw [← hhalf]
    have hmpos : 0 < 2 ^ (L - 1) := by positivity
    have h2m : 2 * 2 ^ (L - 1) = 2 ^ L := by
      conv_rhs => rw [show L = (L - 1) + 1 by omega, pow_succ]
      ring
    refine classLoop (P' := fun i b => cs.Holds (dft (S.φ R.w) (2 ^ L) (cs.ext input) i) b) a2 h2.1 hmpos ?_
    intro j c hj hc hca
    rw [rd_gt (by rw [hG.WSize]; omega), ok_bind]
    obtain ⟨v1, f1⟩ := hG.W j (by omega)
    set x := ditState (S.φ R.w) L (L - 1) (cs.ext input) with hx
    obtain ⟨c', e, s1, s2, s3⟩ := ctStep_spec cs (r := gt R.W j) (start := j) (m := 2 ^ (L - 1)) (step := 2 ^ L)
      hG.n v1 hmpos (by omega) (dvd_refl _) hc (x := x)
      (x' := ctLayer (S.φ R.w) L (L - 1) x)
      (fun i hi h => by
        rw [hca i hi ((mod_half hj).mpr (by rw [h2m]; exact h))]; exact h2.2 i hi)
      (fun i h => by
        simp only [ctLayer]
        rw [show L - 1 + 1 = L by omega, show L - (L - 1) - 1 = 0 by omega, h, mod_add_lt h (by omega),
          if_pos hj, if_neg (by omega), f1]
        simp)
    refine ⟨c', e, s1, ?_, ?_⟩
    · intro i hi h
      have h' := (mod_half hj).mp h
      rw [h2m] at h'
      have h3 := s2 i hi h'
      rw [hx, dit_step (by omega) (pow_half (by omega) hG.root), show L - 1 + 1 = L by omega, dit_final _ hi] at h3
      exact h3
    · intro i hi h
      exact s3 i hi (fun h' => h ((mod_half hj).mpr (by rw [h2m]; exact h')))

/-! ### inverse transform -/

theorem gsStage_idx {L s j : Nat} (hs : s < L) : j * 2 ^ L / (2 * 2 ^ s) = j * 2 ^ (L - (s + 1)) := by
  rw [show 2 * 2 ^ s = 2 ^ (s + 1) by rw [pow_succ]; ring, two_pow_mul_div (by omega)]

include hG in
theorem gsStage_spec {s : Nat} (hs : s < L) {a : Array β} {x : Nat → M} (ha : cs.Arr (2 ^ L) a x) :
    ∃ a', R.gsStage C (2 ^ s) a = .ok a' ∧ cs.Arr (2 ^ L) a' (gsLayer (S.φ R.w)⁻¹ L s x) := by
  have h2m : 2 * 2 ^ s = 2 ^ (s + 1) := by rw [pow_succ]; ring
  unfold Radix2.gsStage
  rw [hG.n]
  have hmpos : 0 < 2 ^ s := by positivity
  refine classLoop (P' := fun i b => cs.Holds (gsLayer (S.φ R.w)⁻¹ L s x i) b) a ha.1 hmpos ?_
  intro j c hj hc hca
  have hlt : j * 2 ^ (L - (s + 1)) < 2 ^ L := idx_lt (by omega) (by omega)
  simp only [gsStage_idx hs]
  rw [rd_gt (by rw [hG.invWSize]; exact hlt), ok_bind]
  obtain ⟨hV, hφ⟩ := hG.invW _ hlt
  obtain ⟨c', e, s1, s2, s3⟩ := pairLoop
    (f := fun i a => Radix2.gsPair C (gt R.inv_W (j * 2 ^ (L - (s + 1)))) (2 ^ s) i a)
    (start := j) (m := 2 ^ s) (step := 2 * 2 ^ s) (N := 2 ^ L) hmpos (by omega) (two_mul_dvd hs)
    (fun i b => cs.Holds (x i) b) (fun i b => cs.Holds (gsLayer (S.φ R.w)⁻¹ L s x i) b) c hc
    (by
      intro i c hi him hcs h1 h2
      obtain ⟨u, v, e, hu, hv⟩ := gsPair_spec cs hV hmpos c hcs him h1 h2
      refine ⟨u, v, e, ?_, ?_⟩
      · simp only [gsLayer]
        rw [← h2m, hi, if_pos hj]
        exact hu
      · simp only [gsLayer]
        rw [← h2m, mod_add_lt hi (by omega), if_neg (by omega)]
        rw [hφ] at hv
        simpa [Nat.sub_sub] using hv)
    (by
      intro i hi h
      rw [hca i hi ((mod_half hj).mpr h)]
      exact ha.2 i hi)
  exact ⟨c', e, s1, fun i hi h => s2 i hi ((mod_half hj).mp h),
    fun i hi h => s3 i hi (fun h' => h ((mod_half hj).mpr h'))⟩

theorem inv_half {w : K} {L : Nat} (hL : 0 < L) (hw : IsPrimitiveRoot w (2 ^ L)) : w⁻¹ ^ 2 ^ (L - 1) = -1 := by
  rw [inv_pow, pow_half hL hw]; norm_num

/-- half of a power of two, in the form the loops use -/
def halfPow : Nat → Nat
  | 0 => 0
  | k + 1 => 2 ^ k

theorem halfPow_eq (k : Nat) : halfPow k = 2 ^ k / 2 := by
  cases k with
  | zero => rfl
  | succ k => simp [halfPow, pow_succ]

include hG in
/-- the loop `for (; m >= 1; m /= 2)` started at `2^k / 2` on blocks of length `2^k` -/
theorem gsStages_spec (x : Nat → M) : ∀ (k fuel : Nat) (a : Array β), k ≤ L → k < fuel →
    cs.Arr (2 ^ L) a (difState (S.φ R.w)⁻¹ L (L - k) x) →
    ∃ a', R.gsStages C fuel (halfPow k) a = .ok a' ∧
      cs.Arr (2 ^ L) a' (difState (S.φ R.w)⁻¹ L L x) := by
  intro k
  induction k with
  | zero =>
    intro fuel a _ hf ha
    obtain ⟨f, rfl⟩ : ∃ f, fuel = f + 1 := ⟨fuel - 1, by omega⟩
    rw [Radix2.gsStages, halfPow, if_neg (by omega)]
    exact ⟨a, rfl, ha⟩
  | succ k ih =>
    intro fuel a hk hf ha
    obtain ⟨f, rfl⟩ : ∃ f, fuel = f + 1 := ⟨fuel - 1, by omega⟩
    obtain ⟨a1, e1, h1⟩ := gsStage_spec hG cs (s := k) (by omega) ha
    rw [Radix2.gsStages, halfPow, if_pos (Nat.one_le_two_pow), e1, ok_bind, ← halfPow_eq]
    apply ih f a1 (by omega) (by omega)
    refine ⟨h1.1, fun i hi => ?_⟩
    have := h1.2 i hi
    rwa [show L - (k + 1) = L - k - 1 by omega, dif_step (by omega) (inv_half (by omega) hG.root)] at this

include hG in
theorem gsAll_spec (x : Nat → M) {k : Nat} {a : Array β} (hk : k ≤ L)
    (ha : cs.Arr (2 ^ L) a (difState (S.φ R.w)⁻¹ L (L - k) x)) :
    ∃ a' a'', R.gsStages C (R.n + 1) (halfPow k) a = .ok a' ∧ R.bit_rev_permute a' = .ok a'' ∧
      cs.Arr (2 ^ L) a'' (dft (S.φ R.w)⁻¹ (2 ^ L) x) := by
  obtain ⟨a1, e1, h1⟩ := gsStages_spec hG cs x k (R.n + 1) a hk
    (by rw [hG.n]; have := Nat.lt_two_pow_self (n := L); omega) ha
  obtain ⟨a2, e2, s2, h2⟩ := bit_rev_permute_spec hG.n hG.revSize hG.rev a1 h1.1
  refine ⟨a1, a2, e1, e2, s2, fun i hi => ?_⟩
  rw [h2 i hi]
  have := h1.2 _ (bitrev_lt L i)
  rwa [dif_final, bitrev_bitrev L i hi] at this

include hG in
/-- `fft_inv(Vector)` for a full-length input -/
theorem fft_inv_spec (cs : CellSim (wordCell R.F) S M) {out input : Array Nat} (hout : out.size = 2 ^ L)
    (hin : input.size = 2 ^ L) (hV : ∀ j, j < input.size → cs.V (gt input j)) :
    ∃ a', R.fft_inv out input = .ok a' ∧ cs.Arr (2 ^ L) a' (dft (S.φ R.w)⁻¹ (2 ^ L) (cs.ext input)) := by
  obtain ⟨a1, e1, s1, h1⟩ := copyIn_spec (out := out) (input := input) (by omega)
  obtain ⟨a2, a3, e2, e3, h3⟩ := gsAll_spec hG cs (cs.ext input) (k := L) (a := a1) le_rfl
    ⟨by omega, fun i hi => by
      rw [Nat.sub_self, dif_start _ hi, h1, if_pos (by omega)]
      unfold CellSim.ext; rw [if_pos (by omega)]
      exact ⟨hV _ (by omega), rfl⟩⟩
  refine ⟨a3, ?_, h3⟩
  unfold Radix2.fft_inv
  rw [e1, ok_bind]
  rw [halfPow_eq, ← hG.n] at e2
  rw [e2, ok_bind, e3]

/-! short inputs of the packet version -/

/-- what is known of the cells during the simplified stages: every cell has its
shape, those below `P` in their block are already right -/
def CellSim.Part (cs : CellSim C S M) (N B P : Nat) (a : Array β) (x : Nat → M) : Prop :=
  a.size = N ∧ ∀ i, i < N → cs.G (gt a i) ∧ (i % B < P → cs.Holds (x i) (gt a i))

include hG in
theorem gsSimpleStage_spec {s P : Nat} (hs : s < L) (hP : P ≤ 2 ^ s) {a : Array β} {x : Nat → M}
    (hx0 : ∀ j, P ≤ j → x j = 0)
    (ha : cs.Part (2 ^ L) (2 ^ (s + 1)) P a (difState (S.φ R.w)⁻¹ L (L - (s + 1)) x)) :
    ∃ a', forN (2 ^ s) a (fun j a => do
        let r ← rd R.inv_W (j * R.n / (2 * 2 ^ s))
        forStep j R.n (2 * 2 ^ s) a (fun i a => Radix2.gsSimplePair C r (2 ^ s) i a)) = .ok a' ∧
      cs.Part (2 ^ L) (2 ^ s) P a' (difState (S.φ R.w)⁻¹ L (L - s) x) := by
  have h2m : 2 * 2 ^ s = 2 ^ (s + 1) := by rw [pow_succ]; ring
  rw [hG.n]
  have hmpos : 0 < 2 ^ s := by positivity
  set v := (S.φ R.w)⁻¹ with hv
  have hhalf : v ^ 2 ^ (L - 1) = -1 := inv_half (by omega) hG.root
  refine classLoop (P' := fun i b => cs.G b ∧ (i % 2 ^ s < P → cs.Holds (difState v L (L - s) x i) b))
    a ha.1 hmpos ?_
  intro j c hj hc hca
  have hlt : j * 2 ^ (L - (s + 1)) < 2 ^ L := idx_lt (by omega) (by omega)
  simp only [gsStage_idx hs]
  rw [rd_gt (by rw [hG.invWSize]; exact hlt), ok_bind]
  obtain ⟨hV, hφ⟩ := hG.invW _ hlt
  set r := gt R.inv_W (j * 2 ^ (L - (s + 1))) with hr
  -- the second half of a block is zero
  have hzero : ∀ i, i % (2 * 2 ^ s) = j → difState v L (L - (s + 1)) x (i + 2 ^ s) = 0 := by
    intro i hi
    rw [dif_short x (P := P) (by
      rw [show L - (L - (s + 1)) = s + 1 by omega, ← h2m]; omega) hx0]
    rw [show L - (L - (s + 1)) = s + 1 by omega, ← h2m, mod_add_lt hi (by omega), hx0 _ (by omega), smul_zero]
  have hst : ∀ i, i % (2 * 2 ^ s) = j →
      difState v L (L - s) x i = difState v L (L - (s + 1)) x i ∧
      difState v L (L - s) x (i + 2 ^ s) = v ^ (j * 2 ^ (L - (s + 1))) • difState v L (L - (s + 1)) x i := by
    intro i hi
    constructor
    · rw [← dif_step hs hhalf]
      simp only [gsLayer]
      rw [← h2m, hi, if_pos hj, show L - s - 1 = L - (s + 1) by omega, hzero i hi, add_zero]
    · rw [← dif_step hs hhalf]
      simp only [gsLayer]
      rw [← h2m, mod_add_lt hi (by omega), if_neg (by omega), show L - s - 1 = L - (s + 1) by omega, hzero i hi]
      simp
  obtain ⟨c', e, s1, s2, s3⟩ := pairLoop
    (f := fun i a => Radix2.gsSimplePair C r (2 ^ s) i a)
    (start := j) (m := 2 ^ s) (step := 2 * 2 ^ s) (N := 2 ^ L) hmpos (by omega) (two_mul_dvd hs)
    (fun i b => cs.G b ∧ (i % 2 ^ (s + 1) < P → cs.Holds (difState v L (L - (s + 1)) x i) b))
    (fun i b => cs.G b ∧ (i % 2 ^ s < P → cs.Holds (difState v L (L - s) x i) b)) c hc
    (by
      intro i c hi him hcs h1 h2
      obtain ⟨y, ey, hy, hyV⟩ := cs.gsSimple (r := r) h1.1 h2.1
      refine ⟨gt c i, y, ?_, ⟨h1.1, ?_⟩, ⟨hy, ?_⟩⟩
      · unfold Radix2.gsSimplePair
        rw [rd_gt (by omega), ok_bind, rd_gt (by omega), ok_bind, ey, ok_bind, wr_ok (by omega)]
        have : c.setIfInBounds i (gt c i) = c := by
          apply gt_ext (by simp)
          intro k hk
          rw [gt_set (by omega)]; split
          · rename_i h; rw [h]
          · rfl
        rw [this]
      · intro hP'
        rw [(hst i hi).1]
        apply h1.2
        rw [← h2m, hi]
        rwa [(mod_half hj).mpr (Or.inl hi)] at hP'
      · intro hP'
        have hij : i % 2 ^ s = j := (mod_half hj).mpr (Or.inl hi)
        rw [Nat.add_mod_right, hij] at hP'
        have h3 := h1.2 (by rw [← h2m, hi]; exact hP')
        obtain ⟨k1, k2⟩ := hyV hV h3.1
        refine ⟨k1, ?_⟩
        rw [(hst i hi).2, k2, h3.2, hφ])
    (by
      intro i hi h
      rw [hca i hi ((mod_half hj).mpr h)]
      exact ha.2 i hi)
  exact ⟨c', e, s1, fun i hi h => s2 i hi ((mod_half hj).mp h),
    fun i hi h => s3 i hi (fun h' => h ((mod_half hj).mpr h'))⟩

include hG in
theorem gsSimpleStages_spec {len p : Nat} (hlen : 0 < len) (hp : len ≤ 2 ^ p) (hp' : 2 ^ p < 2 * len)
    (x : Nat → M) (hx0 : ∀ j, 2 ^ p ≤ j → x j = 0) :
    ∀ (k fuel : Nat) (a : Array β), p ≤ k → k ≤ L → k < fuel + p →
      cs.Part (2 ^ L) (2 ^ k) (2 ^ p) a (difState (S.φ R.w)⁻¹ L (L - k) x) →
      ∃ a', R.gsSimpleStages C len fuel (halfPow k) a = .ok (halfPow p, a') ∧
        cs.Arr (2 ^ L) a' (difState (S.φ R.w)⁻¹ L (L - p) x) := by
  intro k
  induction k with
  | zero =>
    intro fuel a hpk _ hf ha
    obtain ⟨f, rfl⟩ : ∃ f, fuel = f + 1 := ⟨fuel - 1, by omega⟩
    have : p = 0 := by omega
    subst this
    rw [Radix2.gsSimpleStages, halfPow, if_neg (by omega)]
    exact ⟨a, rfl, ha.1, fun i hi => (ha.2 i hi).2 (by simp [Nat.mod_one])⟩
  | succ k ih =>
    intro fuel a hpk hk hf ha
    obtain ⟨f, rfl⟩ : ∃ f, fuel = f + 1 := ⟨fuel - 1, by omega⟩
    rw [Radix2.gsSimpleStages]
    by_cases hpe : p = k + 1
    · subst hpe
      have hlt : ¬ (halfPow (k + 1) ≥ len) := by
        rw [halfPow]; rw [pow_succ] at hp'; omega
      rw [if_neg hlt]
      exact ⟨a, rfl, ha.1, fun i hi => (ha.2 i hi).2 (Nat.mod_lt _ (by positivity))⟩
    · have hpk' : p ≤ k := by omega
      have hPk : 2 ^ p ≤ 2 ^ k := Nat.pow_le_pow_right (by omega) hpk'
      have hge : halfPow (k + 1) ≥ len := by rw [halfPow]; omega
      rw [if_pos hge]
      obtain ⟨a1, e1, h1⟩ := gsSimpleStage_spec hG cs (s := k) (P := 2 ^ p) (by omega) hPk hx0 ha
      simp only [halfPow] at e1 ⊢
      rw [e1, ok_bind, ← halfPow_eq]
      exact ih f a1 hpk' (by omega) (by omega) h1

include hG in
/-- `fft_inv(Buffers)` -/
theorem fftInvBufG_spec {out input : Array β} (hL : L < 31) (hout : out.size = 2 ^ L)
    (hin0 : 0 < input.size) (hin1 : input.size ≤ 2 ^ L)
    (hGo : ∀ i, i < 2 ^ L → cs.G (gt out i)) (hV : ∀ j, j < input.size → cs.V (gt input j)) :
    ∃ a', R.fftInvBufG C out input = .ok a' ∧
      cs.Arr (2 ^ L) a' (dft (S.φ R.w)⁻¹ (2 ^ L) (cs.ext input)) := by
  obtain ⟨o1, e1, s1, h1⟩ := bit_rev_permute_spec hG.n hG.revSize hG.rev out hout
  obtain ⟨o2, e2, s2, h2⟩ := copyIn_spec (out := o1) (input := input) (by omega)
  unfold Radix2.fftInvBufG
  rw [e1, ok_bind, e2, ok_bind]
  by_cases hshort : input.size < R.n
  · rw [if_pos hshort]
    rw [hG.n] at hshort
    have hL31 : 2 ^ L ≤ 2 ^ 30 := Nat.pow_le_pow_right (by omega) (by omega)
    obtain ⟨p, ep, hp1, hp2⟩ := Arith.ceil2_spec (b := 32) hin0 (by norm_num; omega)
    have hpL : p ≤ L := by
      have := hp2 L hin1
      exact (Nat.pow_le_pow_iff_right (by omega)).mp this
    have hplt : 2 ^ p < 2 * input.size := by
      cases p with
      | zero => omega
      | succ q =>
        by_contra hc
        have h3 := hp2 q (by rw [pow_succ] at hc; omega)
        rw [pow_succ] at h3
        have : 0 < 2 ^ q := by positivity
        omega
    have hple : 2 ^ p ≤ 2 ^ L := Nat.pow_le_pow_right (by omega) hpL
    rw [ep, ok_bind]
    obtain ⟨o3, e3, s3, h3⟩ := forStep_inv (a := input.size) (b := 2 ^ p) (st := 1) (s := o2)
      (f := fun i out => wr out i C.zero)
      (I := fun k (c : Array β) => c.size = 2 ^ L ∧
        ∀ i, gt c i = if input.size ≤ i ∧ i < input.size + k then C.zero else gt o2 i)
      (by omega) ⟨by omega, fun i => by rw [if_neg (by omega)]⟩
      (by
        rintro k c hk ⟨t1, t2⟩
        have hk' : input.size + k * 1 = input.size + k := by ring
        rw [hk'] at hk ⊢
        refine ⟨_, wr_ok (by omega), by simp [t1], ?_⟩
        intro i
        rw [gt_set (by omega), t2]
        by_cases hi : i = input.size + k
        · rw [if_pos hi, if_pos (by omega)]
        · rw [if_neg hi]
          by_cases hc : input.size ≤ i ∧ i < input.size + k
          · rw [if_pos hc, if_pos (by omega)]
          · rw [if_neg hc, if_neg (by omega)])
    have hst : input.size + stride input.size (2 ^ p) 1 = 2 ^ p := by
      unfold stride; simp; omega
    rw [hst] at h3
    rw [e3, ok_bind]
    have hx0 : ∀ j, 2 ^ p ≤ j → cs.ext input j = 0 := by
      intro j hj; unfold CellSim.ext; rw [if_neg (by omega)]
    obtain ⟨o4, e4, h4⟩ := gsSimpleStages_spec hG cs hin0 hp1 hplt (cs.ext input) hx0 L (R.n + 1) o3 hpL le_rfl
      (by rw [hG.n]; have := Nat.lt_two_pow_self (n := L); omega)
      ⟨s3, fun i hi => by
        have hval : i < 2 ^ p → cs.Holds (cs.ext input i) (gt o3 i) := by
          intro hip
          rw [h3]
          unfold CellSim.ext
          by_cases hii : i < input.size
          · rw [if_pos hii, if_neg (by omega), h2, if_pos hii]; exact ⟨hV i hii, rfl⟩
          · rw [if_neg hii, if_pos (by omega)]; exact cs.zero
        constructor
        · by_cases hip : i < 2 ^ p
          · exact cs.shape (hval hip).1
          · rw [h3, if_neg (by omega), h2, if_neg (by omega), h1 i hi]
            exact hGo _ (bitrev_lt L i)
        · intro hip
          rw [Nat.mod_eq_of_lt hi] at hip
          rw [Nat.sub_self, dif_start _ hi]
          exact hval hip⟩
    rw [halfPow_eq L, ← hG.n] at e4
    rw [e4]
    simp only [ok_bind]
    obtain ⟨a2, a3, e5, e6, h5⟩ := gsAll_spec hG cs (cs.ext input) hpL h4
    rw [e5, ok_bind, e6]
    exact ⟨a3, rfl, h5⟩
  · rw [if_neg hshort]
    rw [hG.n] at hshort
    simp only [pure, Except.pure, ok_bind]
    obtain ⟨a2, a3, e5, e6, h5⟩ := gsAll_spec hG cs (cs.ext input) (k := L) (a := o2) le_rfl
      ⟨by omega, fun i hi => by
        rw [Nat.sub_self, dif_start _ hi, h2, if_pos (by omega)]
        unfold CellSim.ext; rw [if_pos (by omega)]
        exact ⟨hV _ (by omega), rfl⟩⟩
    rw [halfPow_eq, ← hG.n] at e5
    rw [e5, ok_bind, e6]
    exact ⟨a3, rfl, h5⟩

/-- multiplication of all elements by `inv_n_mod_p` -/
theorem scaleAll_spec (hsc : cs.Scales R.inv_n) {N : Nat} {a : Array β} {x : Nat → M} (ha : cs.Arr N a x) :
    ∃ a', R.scaleAll C a = .ok a' ∧ cs.Arr N a' (fun i => S.φ R.inv_n • x i) := by
  unfold Radix2.scaleAll
  rw [ha.1]
  obtain ⟨a', e, h1, h2⟩ := forN_inv (n := N) (s := a)
    (f := fun i out => do
      let x ← rd out i
      let y ← C.scale R.inv_n x
      wr out i y)
    (I := fun k (c : Array β) => c.size = N ∧ ∀ i, i < N →
      cs.Holds (if i < k then S.φ R.inv_n • x i else x i) (gt c i))
    ⟨ha.1, fun i hi => by rw [if_neg (by omega)]; exact ha.2 i hi⟩
    (by
      rintro k c hk ⟨t1, t2⟩
      have h3 := t2 k hk
      rw [if_neg (lt_irrefl _)] at h3
      obtain ⟨u, eu, hu, pu⟩ := hsc h3.1
      refine ⟨_, by rw [rd_gt (by omega), ok_bind, eu, ok_bind, wr_ok (by omega)], by simp [t1], ?_⟩
      intro i hi
      rw [gt_set (by omega)]
      by_cases hik : i = k
      · rw [if_pos hik, if_pos (by omega), hik]; exact ⟨hu, by rw [pu, h3.2]⟩
      · rw [if_neg hik]
        have := t2 i hi
        by_cases hlt : i < k
        · rw [if_pos (by omega)]; rwa [if_pos hlt] at this
        · rw [if_neg (by omega)]; rwa [if_neg hlt] at this)
  exact ⟨a', e, h1, fun i hi => by have := h2 i hi; rwa [if_pos hi] at this⟩

end Main

/-! ### the two kinds of cells -/

section Cells
variable {F : GF} {K : Type} [Field K]

/-- words -/
def wordSim (S : F.Sim K) : CellSim (wordCell F) S K where
  G := fun _ => True
  V := S.V
  π := S.φ
  shape := fun _ => trivial
  zero := S.zero
  ct := by
    intro r a b hr ha hb
    have h1 := S.mul hr hb
    have h2 := S.add ha h1.1
    have h3 := S.sub ha h1.1
    exact ⟨_, _, rfl, h2.1, h3.1, by rw [h2.2, h1.2]; rfl, by rw [h3.2, h1.2]; rfl⟩
  gs := by
    intro r a b hr ha hb
    have h1 := S.sub ha hb
    have h2 := S.add ha hb
    have h3 := S.mul hr h1.1
    exact ⟨_, _, rfl, h2.1, h3.1, h2.2, by rw [h3.2, h1.2]; rfl⟩
  gsSimple := by
    intro r a b _ _
    refine ⟨_, rfl, trivial, fun hr ha => ?_⟩
    exact S.mul hr ha

theorem wordSim_scales (S : F.Sim K) {c : Nat} (hc : S.V c) : (wordSim S).Scales c := by
  intro a ha
  have := S.mul ha hc
  exact ⟨_, rfl, this.1, by
    show S.φ (F.mul a c) = S.φ c * S.φ a
    rw [this.2, mul_comm]⟩

/-- a loop over two packets touching entry `j` in turn `j` -/
theorem pktLoop2 {pkt : Nat} {f g : Nat → Nat → Nat} {body : Nat → Array Nat × Array Nat → Res (Array Nat × Array Nat)}
    {a b : Array Nat} (ha : a.size = pkt) (hb : b.size = pkt)
    (hbody : ∀ j (s : Array Nat × Array Nat), j < s.1.size → j < s.2.size →
      body j s = .ok (s.1.setIfInBounds j (f (gt s.1 j) (gt s.2 j)), s.2.setIfInBounds j (g (gt s.1 j) (gt s.2 j)))) :
    ∃ u v, forN pkt (a, b) body = .ok (u, v) ∧ u.size = pkt ∧ v.size = pkt ∧
      (∀ j, j < pkt → gt u j = f (gt a j) (gt b j)) ∧ (∀ j, j < pkt → gt v j = g (gt a j) (gt b j)) := by
  obtain ⟨s, e, h1, h2, h3, h4⟩ := forN_inv (n := pkt) (s := (a, b)) (f := body)
    (I := fun k s => s.1.size = pkt ∧ s.2.size = pkt ∧
      (∀ j, gt s.1 j = if j < k then f (gt a j) (gt b j) else gt a j) ∧
      (∀ j, gt s.2 j = if j < k then g (gt a j) (gt b j) else gt b j))
    ⟨ha, hb, fun j => by rw [if_neg (by omega)], fun j => by rw [if_neg (by omega)]⟩
    (by
      rintro k s hk ⟨t1, t2, t3, t4⟩
      refine ⟨_, hbody k s (by omega) (by omega), by simp [t1], by simp [t2], ?_, ?_⟩
      · intro j
        simp only
        rw [gt_set (by omega), t3, t3, t4]
        by_cases hj : j = k
        · subst hj; simp
        · rw [if_neg hj]
          by_cases hlt : j < k
          · rw [if_pos hlt, if_pos (by omega)]
          · rw [if_neg hlt, if_neg (by omega)]
      · intro j
        simp only
        rw [gt_set (by omega), t3, t4, t4]
        by_cases hj : j = k
        · subst hj; simp
        · rw [if_neg hj]
          by_cases hlt : j < k
          · rw [if_pos hlt, if_pos (by omega)]
          · rw [if_neg hlt, if_neg (by omega)])
  exact ⟨s.1, s.2, e, h1, h2, fun j hj => by rw [h3, if_pos hj], fun j hj => by rw [h4, if_pos hj]⟩

theorem pktLoop1 {pkt : Nat} {f : Nat → Nat → Nat} {body : Nat → Array Nat → Res (Array Nat)}
    {a : Array Nat} (ha : a.size = pkt)
    (hbody : ∀ j (s : Array Nat), j < pkt → j < s.size → body j s = .ok (s.setIfInBounds j (f j (gt s j)))) :
    ∃ u, forN pkt a body = .ok u ∧ u.size = pkt ∧ (∀ j, j < pkt → gt u j = f j (gt a j)) := by
  obtain ⟨s, e, h1, h2⟩ := forN_inv (n := pkt) (s := a) (f := body)
    (I := fun k s => s.size = pkt ∧ (∀ j, gt s j = if j < k then f j (gt a j) else gt a j))
    ⟨ha, fun j => by rw [if_neg (by omega)]⟩
    (by
      rintro k s hk ⟨t1, t2⟩
      refine ⟨_, hbody k s hk (by omega), by simp [t1], ?_⟩
      intro j
      rw [gt_set (by omega), t2, t2]
      by_cases hj : j = k
      · subst hj; simp
      · rw [if_neg hj]
        by_cases hlt : j < k
        · rw [if_pos hlt, if_pos (by omega)]
        · rw [if_neg hlt, if_neg (by omega)])
  exact ⟨s, e, h1, fun j hj => by rw [h2, if_pos hj]⟩

/-- packets: one value of `K` per position -/
def pktSim (S : F.Sim K) (pkt : Nat) : CellSim (pktCell F pkt) S (Fin pkt → K) where
  G := fun a => a.size = pkt
  V := fun a => a.size = pkt ∧ ∀ j, j < pkt → S.V (gt a j)
  π := fun a j => S.φ (gt a j)
  shape := fun h => h.1
  zero := by
    refine ⟨⟨by simp [pktCell], fun j hj => ?_⟩, ?_⟩
    · simp only [pktCell]; rw [gt_replicate hj]; exact S.zero.1
    · funext j; simp only [pktCell]; rw [gt_replicate j.2]; exact S.zero.2
  ct := by
    intro r a b hr ha hb
    obtain ⟨u, v, e, h1, h2, h3, h4⟩ := pktLoop2 (f := fun x y => F.add x (F.mul r y))
      (g := fun x y => F.sub x (F.mul r y)) (body := fun j (s : Array Nat × Array Nat) => do
        let bj ← rd s.2 j
        let aj ← rd s.1 j
        let x := F.mul r bj
        let b' ← wr s.2 j (F.sub aj x)
        let a' ← wr s.1 j (F.add aj x)
        pure (a', b')) ha.1 hb.1 (by
          intro j s hj1 hj2
          simp only [rd_gt hj1, rd_gt hj2, wr_ok hj1, wr_ok hj2, ok_bind]; rfl)
    have key : ∀ j, j < pkt → S.V (gt u j) ∧ S.V (gt v j) ∧ S.φ (gt u j) = S.φ (gt a j) + S.φ r * S.φ (gt b j) ∧
        S.φ (gt v j) = S.φ (gt a j) - S.φ r * S.φ (gt b j) := by
      intro j hj
      have m1 := S.mul hr (hb.2 j hj)
      have m2 := S.add (ha.2 j hj) m1.1
      have m3 := S.sub (ha.2 j hj) m1.1
      rw [h3 j hj, h4 j hj]
      exact ⟨m2.1, m3.1, by rw [m2.2, m1.2], by rw [m3.2, m1.2]⟩
    exact ⟨u, v, e, ⟨h1, fun j hj => (key j hj).1⟩, ⟨h2, fun j hj => (key j hj).2.1⟩,
      funext fun j => (key j j.2).2.2.1, funext fun j => (key j j.2).2.2.2⟩
  gs := by
    intro r a b hr ha hb
    obtain ⟨u, v, e, h1, h2, h3, h4⟩ := pktLoop2 (f := fun x y => F.add x y)
      (g := fun x y => F.mul r (F.sub x y)) (body := fun j (s : Array Nat × Array Nat) => do
        let aj ← rd s.1 j
        let bj ← rd s.2 j
        let x := F.sub aj bj
        let a' ← wr s.1 j (F.add aj bj)
        let b' ← wr s.2 j (F.mul r x)
        pure (a', b')) ha.1 hb.1 (by
          intro j s hj1 hj2
          simp only [rd_gt hj1, rd_gt hj2, wr_ok hj1, wr_ok hj2, ok_bind]; rfl)
    have key : ∀ j, j < pkt → S.V (gt u j) ∧ S.V (gt v j) ∧ S.φ (gt u j) = S.φ (gt a j) + S.φ (gt b j) ∧
        S.φ (gt v j) = S.φ r * (S.φ (gt a j) - S.φ (gt b j)) := by
      intro j hj
      have m1 := S.sub (ha.2 j hj) (hb.2 j hj)
      have m2 := S.add (ha.2 j hj) (hb.2 j hj)
      have m3 := S.mul hr m1.1
      rw [h3 j hj, h4 j hj]
      exact ⟨m2.1, m3.1, m2.2, by rw [m3.2, m1.2]⟩
    exact ⟨u, v, e, ⟨h1, fun j hj => (key j hj).1⟩, ⟨h2, fun j hj => (key j hj).2.1⟩,
      funext fun j => (key j j.2).2.2.1, funext fun j => (key j j.2).2.2.2⟩
  gsSimple := by
    intro r a b ha hb
    obtain ⟨u, e, h1, h2⟩ := pktLoop1 (f := fun j _ => F.mul r (gt a j)) (body := fun j b => do
        let aj ← rd a j
        wr b j (F.mul r aj)) hb (by
          intro j s hj1 hj2
          rw [rd_gt (by omega), ok_bind, wr_ok hj2])
    refine ⟨u, e, h1, fun hr hVa => ⟨⟨h1, fun j hj => ?_⟩, funext fun j => ?_⟩⟩
    · rw [h2 j hj]; exact (S.mul hr (hVa.2 j hj)).1
    · show S.φ (gt u j) = S.φ r * S.φ (gt a j)
      rw [h2 j j.2]; exact (S.mul hr (hVa.2 j j.2)).2

/-- `card_minus_one()` is the largest valid word and stands for `-1` -/
structure GF.Sim.Neg1 (S : F.Sim K) : Prop where
  le : ∀ {c}, S.V c → c ≤ F.cardM1
  val : S.φ F.cardM1 = -1
  unit : F.unit = 1

theorem pktSim_scales (S : F.Sim K) (hS : S.Neg1) {pkt c : Nat} (hc : S.V c) : (pktSim S pkt).Scales c := by
  have fin : ∀ {a u : Array Nat}, (pktSim S pkt).V a → (pktCell F pkt).scale c a = .ok u → u.size = pkt →
      (∀ j, j < pkt → S.V (gt u j) ∧ S.φ (gt u j) = S.φ c * S.φ (gt a j)) →
      ∃ u, (pktCell F pkt).scale c a = .ok u ∧ (pktSim S pkt).V u ∧ (pktSim S pkt).π u = S.φ c • (pktSim S pkt).π a := by
    intro a u _ e h1 h2
    exact ⟨u, e, ⟨h1, fun j hj => (h2 j hj).1⟩, funext fun j => (h2 j j.2).2⟩
  intro a ha
  by_cases c1 : c > 1 ∧ c < F.cardM1
  · obtain ⟨u, e, h1, h2⟩ := pktLoop1 (f := fun _ x => F.mul c x) (body := fun j a => do
        let aj ← rd a j
        wr a j (F.mul c aj)) ha.1 (by
          intro j s hj1 hj2; rw [rd_gt hj2, ok_bind, wr_ok hj2])
    exact fin ha (by simp only [pktCell]; rw [if_pos c1]; exact e) h1
      (fun j hj => by rw [h2 j hj]; exact S.mul hc (ha.2 j hj))
  by_cases c2 : c = 1
  · refine fin ha (u := a) (by simp only [pktCell]; rw [if_neg c1, if_pos c2]) ha.1 (fun j hj => ⟨ha.2 j hj, ?_⟩)
    rw [c2, ← hS.unit, S.one.2, one_mul]
  by_cases c3 : c = 0
  · obtain ⟨u, e, h1, h2⟩ := pktLoop1 (f := fun _ _ => 0) (body := fun j a => wr a j 0) ha.1 (by
          intro j s hj1 hj2; rw [wr_ok hj2])
    exact fin ha (by simp only [pktCell]; rw [if_neg c1, if_neg c2, if_pos c3]; exact e) h1
      (fun j hj => by rw [h2 j hj, c3, S.zero.2, zero_mul]; exact ⟨S.zero.1, rfl⟩)
  · have c4 : c = F.cardM1 := by have := hS.le hc; omega
    obtain ⟨u, e, h1, h2⟩ := pktLoop1 (f := fun _ x => F.sub 0 x) (body := fun j a => do
        let aj ← rd a j
        wr a j (F.sub 0 aj)) ha.1 (by
          intro j s hj1 hj2; rw [rd_gt hj2, ok_bind, wr_ok hj2])
    refine fin ha (by simp only [pktCell]; rw [if_neg c1, if_neg c2, if_neg c3, if_pos c4]; exact e) h1
      (fun j hj => ?_)
    have h3 := S.sub S.zero.1 (ha.2 j hj)
    rw [h2 j hj, h3.2, c4, hS.val, S.zero.2]
    exact ⟨h3.1, by ring⟩

end Cells

/-! ### the constructor -/

section Ctor
variable {F : GF} {K : Type} [Field K] (S : F.Sim K)

theorem GF.computeOmegas_spec {w n : Nat} (hw : S.V w) (hn : F.isNF4 = true → n ≤ 2 ^ 32) :
    ∃ W, F.computeOmegas (Array.replicate n 0) n w = .ok W ∧ W.size = n ∧
      ∀ i, i < n → gt W i = F.omega w i ∧ S.V (gt W i) ∧ S.φ (gt W i) = S.φ w ^ i := by
  obtain ⟨W, e, h1, h2⟩ := forN_fill (n := n) (a := Array.replicate n 0) (fun i => F.omega w i) (by simp)
  refine ⟨W, e, by simpa using h1, fun i hi => ?_⟩
  rw [h2, if_pos hi]
  exact ⟨rfl, S.omega hw (fun h => by have := hn h; omega)⟩

/-- the constructor succeeds and fills the tables, for a power of two that the
field has roots for -/
theorem Radix2.mk'_spec {L dl w inv_n : Nat} (hp : (F.p - 1) % 2 ^ L = 0) (hdl : dl ≤ 2 ^ L)
    (hroot : F.nthRoot (2 ^ L) = .ok w) (hwV : S.V w) (hwU : S.U w) (hprim : IsPrimitiveRoot (S.φ w) (2 ^ L))
    (hinv : F.invN (2 ^ L) = .ok inv_n) (hL : F.isNF4 = true → L ≤ 32 := by exact fun h => nomatch h) :
    ∃ R, Radix2.mk' F (2 ^ L) dl = .ok R ∧ R.F = F ∧ (∃ S' : R.F.Sim K, (∀ c, S'.V c ↔ S.V c) ∧
        (∀ c, S'.φ c = S.φ c) ∧ (S.Neg1 → S'.Neg1) ∧ R.Good S' L) ∧
      R.data_len = (if dl > 0 then dl else 2 ^ L) ∧ R.inv_n = inv_n ∧ R.w = w := by
  have hpos : 0 < 2 ^ L := by positivity
  obtain ⟨iw, ei, hiV, hiφ⟩ := S.inv hwV hwU
  obtain ⟨W, e1, z1, h1⟩ := GF.computeOmegas_spec S (n := 2 ^ L) hwV (fun h => Nat.pow_le_pow_right (by omega) (hL h))
  obtain ⟨W', e2, z2, h2⟩ := GF.computeOmegas_spec S (n := 2 ^ L) hiV (fun h => Nat.pow_le_pow_right (by omega) (hL h))
  have hlog : Arith.log2 ((2 ^ L : Nat) : Int) = .ok L := by
    rw [Arith.log2_eq hpos, Nat.log_pow (by omega)]
  obtain ⟨rv, e3, z3, h3⟩ := forN_fill (n := 2 ^ L) (a := Array.replicate (2 ^ L) 0)
    (fun i => reverse_bitwise i (2 ^ L) L) (by simp)
  have e3' : Radix2.init_bitrev (2 ^ L) (Array.replicate (2 ^ L) 0) = .ok rv := by
    unfold Radix2.init_bitrev
    rw [hlog, ok_bind]; exact e3
  refine ⟨⟨F, 2 ^ L, if dl > 0 then dl else 2 ^ L, inv_n, w, iw, W, W', rv⟩, ?_, rfl,
    ⟨S, fun _ => Iff.rfl, fun _ => rfl, id, ?_⟩, rfl, rfl, rfl⟩
  · unfold Radix2.mk'
    rw [hinv, ok_bind]
    simp only [cassert, ge_iff_le, hdl, decide_true, if_true, ok_bind]
    rw [if_neg (by omega), if_neg (by omega), hroot, ok_bind, ei, ok_bind, e1, ok_bind, e2, ok_bind, e3', ok_bind]
    rfl
  · exact
    { n := rfl
      revSize := by simpa using z3
      rev := fun i hi => by
        show gt rv i = _
        rw [h3, if_pos hi, reverse_bitwise_eq hi]
      WSize := z1
      W := fun i hi => (h1 i hi).2
      invWSize := z2
      invW := fun i hi => by
        have := (h2 i hi).2
        rw [hiφ] at this
        exact this
      root := hprim }

end Ctor
end Quad
