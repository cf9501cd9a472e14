import Verif.Lemmas.NF4Ops

/-!
Element-wise products of arrays of packed words, and logarithms.
-/

namespace Quad
open Spec

namespace NF4

open Simd in
theorem storeLow_shift (x : Reg) (t : Nat) : storeLow (fun j => x (t * 16 + j)) = word 32 4 (fun l => lane 4 x (t * 4 + l)) := by
  rw [storeLow_eq]
  refine word_congr (fun l _ => ?_)
  unfold lane
  congr 1
  refine List.map_congr_left (fun u _ => ?_)
  show x (t * 16 + (l * 4 + u)) = x ((t * 4 + l) * 4 + u)
  congr 1; ring

open Simd in
theorem lane_words (xs : List Nat) {t l : Nat} (hl : l < 4) :
    lane 4 (fun j => xs.getD (j / 16) 0 / 256 ^ (j % 16) % 256) (t * 4 + l) = lane32 (xs.getD t 0) l := by
  rw [← lane_loadWord (fun _ => 0) _ l hl]
  unfold lane
  congr 1
  refine List.map_congr_left (fun u hu => ?_)
  have hu := List.mem_range.mp hu
  simp only [loadWord]
  rw [if_pos (by omega), show ((t * 4 + l) * 4 + u) / 16 = t by omega, show ((t * 4 + l) * 4 + u) % 16 = l * 4 + u by omega]

end NF4

namespace Spec.IsNf4
open NF4
variable {N : NF4} {b n : Nat} {simd : Option (Nat × (Nat → Nat))}

theorem vecTurn (H : IsNf4 N b n simd) {R : Nat} {hi : Nat → Nat} (hs : simd = some (R, hi)) {xs ys : List Nat} {t : Nat} (ht : t < R / 16)
    (hx : Packed n (xs.getD t 0)) (hy : Packed n (ys.getD t 0)) :
    storeLow (fun j => Simd.mod_mul_safe R 4 (fun j => xs.getD (j / 16) 0 / 256 ^ (j % 16) % 256)
      (fun j => ys.getD (j / 16) 0 / 256 ^ (j % 16) % 256) (t * 16 + j)) = N.mul (xs.getD t 0) (ys.getD t 0) := by
  have hR := (H.build.vec R hi hs).2
  rw [storeLow_shift, H.mul_eq hx hy, ← word_shrink (H.le4 (by rw [hs]; rfl)) (fun l h1 _ => by
    show lane32 (xs.getD t 0) l * lane32 (ys.getD t 0) l % 65537 = 0
    rw [packed_zero hx h1, Nat.zero_mul])]
  refine word_congr (fun l hl => ?_)
  rw [Simd.lane_mod_mul_safe (Or.inr rfl) (by omega), lane_words xs hl, lane_words ys hl]
  · rfl
  · rw [lane_words xs hl]; exact packed_lane hx l
  · rw [lane_words ys hl]; exact packed_lane hy l

/-- a loop of `R / 16` turns -/
theorem small {R : Nat} (hR : R = 16 ∨ R = 32) : R / 16 = 1 ∨ R / 16 = 2 := by omega

theorem mapM_rd {x : Array Nat} {k : Nat} : ∀ m, k + m ≤ x.size →
    (List.range m).mapM (fun t => rd x (k + t)) = (.ok ((List.range m).map (fun t => gt x (k + t))) : Res (List Nat)) := by
  intro m
  induction m with
  | zero => intro _; rfl
  | succ m ih =>
    intro h
    rw [List.range_succ, List.mapM_append, ih (by omega), ok_bind, List.map_append]
    simp only [List.mapM_cons, List.mapM_nil]
    rw [rd_gt (by omega)]
    rfl

theorem hadamard_eq (H : IsNf4 N b n simd) {len : Nat} {x y : Array Nat} (hxl : len ≤ x.size) (hyl : len ≤ y.size)
    (hx : ∀ i, i < len → Packed n (gt x i)) (hy : ∀ i, i < len → Packed n (gt y i)) :
    ∃ r, N.hadamard_mul len x y = .ok r ∧ r.size = x.size ∧ ∀ i, gt r i = if i < len then N.mul (gt x i) (gt y i) else gt x i := by
  have step : ∀ (k : Nat) (r : Array Nat), r.size = x.size → k < x.size → (∀ i, gt r i = if i < k then N.mul (gt x i) (gt y i) else gt x i) →
      ∀ i, gt (r.setIfInBounds k (N.mul (gt x k) (gt y k))) i = if i < k + 1 then N.mul (gt x i) (gt y i) else gt x i := by
    intro k r hr hk h i
    rw [gt_set (by omega), h i]
    by_cases hi : i = k
    · subst hi; rw [if_pos rfl, if_pos (by omega)]
    · rw [if_neg hi]
      by_cases h' : i < k
      · rw [if_pos h', if_pos (by omega)]
      · rw [if_neg h', if_neg (by omega)]
  unfold NF4.hadamard_mul
  rw [H.ns]
  cases hs : simd with
  | none =>
    simp only
    obtain ⟨r, e, h1, h2⟩ := forN_inv (n := len) (s := x) (f := fun i x => do
        let a ← rd x i
        let c ← rd y i
        wr x i (N.mul a c))
      (I := fun k (r : Array Nat) => r.size = x.size ∧ ∀ i, gt r i = if i < k then N.mul (gt x i) (gt y i) else gt x i)
      ⟨rfl, by simp⟩ (by
        rintro k r hk ⟨h1, h2⟩
        refine ⟨_, by rw [rd_gt (a := r) (by omega), ok_bind, rd_gt (a := y) (by omega), ok_bind, wr_ok (by omega)], by simp [h1], ?_⟩
        have := h2 k
        rw [if_neg (by omega)] at this
        rw [this]
        exact step k r h1 (by omega) h2)
    exact ⟨r, e, h1, h2⟩
  | some s =>
    obtain ⟨R, hi⟩ := s
    have hR := (H.build.vec R hi hs).2
    have hmul : ∀ a c, mulV R hi a c = N.mul a c := by
      intro a c; unfold NF4.mul; rw [H.ns, hs]
    simp only
    unfold hadamard_mulV
    simp only
    set q := R / 16 with hq
    have hq0 : 0 < q := by omega
    have hdm : len / q * q ≤ len := Nat.div_mul_le_self _ _
    obtain ⟨r, e, h1, h2⟩ := forN_inv (n := len / q) (s := x) (f := fun i x => do
        let xs ← (List.range q).mapM (fun t => rd x (i * q + t))
        let ys ← (List.range q).mapM (fun t => rd y (i * q + t))
        let r := Simd.mod_mul_safe R 4 (fun j => xs.getD (j / 16) 0 / 256 ^ (j % 16) % 256) (fun j => ys.getD (j / 16) 0 / 256 ^ (j % 16) % 256)
        forN q x (fun t x => wr x (i * q + t) (storeLow (fun j => r (t * 16 + j)))))
      (I := fun k (r : Array Nat) => r.size = x.size ∧ ∀ i, gt r i = if i < k * q then N.mul (gt x i) (gt y i) else gt x i)
      ⟨rfl, by simp⟩ (by
        rintro k r hk ⟨h1, h2⟩
        have hkq : (k + 1) * q ≤ len := le_trans (Nat.mul_le_mul_right q hk) hdm
        have hk1 : (k + 1) * q = k * q + q := by ring
        rw [mapM_rd (x := r) q (by omega), ok_bind, mapM_rd (x := y) q (by omega), ok_bind]
        simp only
        set xs := (List.range q).map (fun t => gt r (k * q + t)) with hxs
        set ys := (List.range q).map (fun t => gt y (k * q + t)) with hys
        have gx : ∀ t, t < q → xs.getD t 0 = gt x (k * q + t) := by
          intro t ht; rw [hxs, getD_range, if_pos ht, h2, if_neg (by omega)]
        have gy : ∀ t, t < q → ys.getD t 0 = gt y (k * q + t) := by
          intro t ht; rw [hys, getD_range, if_pos ht]
        obtain ⟨r', e', h1', h2'⟩ := forN_inv (n := q) (s := r) (f := fun t x => wr x (k * q + t) (storeLow (fun j =>
            Simd.mod_mul_safe R 4 (fun j => xs.getD (j / 16) 0 / 256 ^ (j % 16) % 256) (fun j => ys.getD (j / 16) 0 / 256 ^ (j % 16) % 256) (t * 16 + j))))
          (I := fun t (r : Array Nat) => r.size = x.size ∧ ∀ i, gt r i = if i < k * q + t then N.mul (gt x i) (gt y i) else gt x i)
          ⟨h1, h2⟩ (by
            rintro t r ht ⟨h1, h2⟩
            have hp : Packed n (xs.getD t 0) ∧ Packed n (ys.getD t 0) := by
              rw [gx t ht, gy t ht]; exact ⟨hx _ (by omega), hy _ (by omega)⟩
            have hv := H.vecTurn hs (t := t) (by omega) hp.1 hp.2
            rw [hv, gx t ht, gy t ht]
            exact ⟨_, wr_ok (by omega), by simp [h1], step (k * q + t) r h1 (by omega) h2⟩)
        refine ⟨r', e', h1', ?_⟩
        rw [hk1]; exact h2')
    rw [e, ok_bind]
    obtain ⟨r', e', h1', h2'⟩ := forN_inv (n := len - len / q * q) (s := r) (f := fun i x => do
        let a ← rd x (len / q * q + i)
        let c ← rd y (len / q * q + i)
        wr x (len / q * q + i) (mulV R hi a c))
      (I := fun k (r : Array Nat) => r.size = x.size ∧ ∀ i, gt r i = if i < len / q * q + k then N.mul (gt x i) (gt y i) else gt x i)
      ⟨h1, h2⟩ (by
        rintro k r hk ⟨h1, h2⟩
        refine ⟨_, by rw [rd_gt (a := r) (by omega), ok_bind, rd_gt (a := y) (by omega), ok_bind, wr_ok (by omega)], by simp [h1], ?_⟩
        have := h2 (len / q * q + k)
        rw [if_neg (by omega)] at this
        rw [this, hmul]
        exact step (len / q * q + k) r h1 (by omega) h2)
    refine ⟨r', e', h1', ?_⟩
    rw [show len / q * q + (len - len / q * q) = len by omega] at h2'
    exact h2'

theorem lanesR_throws {f : Nat → Nat → Res Nat} {e : Err} {n a c : Nat} {g : Nat → Nat}
    (h : ∀ l, l < n → f (lane32 a l) (lane32 c l) = .ok (g l) ∨ f (lane32 a l) (lane32 c l) = .error e)
    (hf : ∃ l, l < n ∧ f (lane32 a l) (lane32 c l) = .error e) : lanesR f n a c = .error e := by
  induction n generalizing a c g with
  | zero => obtain ⟨l, hl, _⟩ := hf; omega
  | succ n ih =>
    have h0 := h 0 (by omega)
    rw [lane32_zero, lane32_zero] at h0
    rw [lanesR]
    rcases h0 with h0 | h0
    · rw [h0, ok_bind]
      obtain ⟨l, hl, he⟩ := hf
      cases l with
      | zero => rw [lane32_zero, lane32_zero, h0] at he; cases he
      | succ l =>
        rw [ih (g := fun l => g (l + 1)) (fun l hl => by simp only [lane32_next]; exact h (l + 1) (by omega))
          ⟨l, by omega, by simp only [lane32_next]; exact he⟩, error_bind]
    · rw [h0, error_bind]

theorem log1 (H : IsNf4 N b n simd) {x : Nat} (hx : x < 65537) (y : Nat) :
    (∃ e, N.sub_field.ring.log x y = .ok e ∧ 1 ≤ e ∧ e < 65537 ∧ x ^ e % 65537 = y ∧ ∀ j, 1 ≤ j → j < e → x ^ j % 65537 ≠ y) ∨
    (N.sub_field.ring.log x y = .error (.throws .noSolution) ∧ ∀ j, 1 ≤ j → x ^ j % 65537 ≠ y) := by
  have hc := H.sub_field.card
  have hexp : ∀ j, N.sub_field.ring.exp x j = x ^ j % 65537 := fun j => by
    rw [RingModN.exp_eq H.sub_field.fits (by omega), hc]
  have := logLoop_spec N.sub_field.ring.exp x y (65537 - 1) 1
  unfold RingModN.log logNaive
  rw [hc]
  rcases this with ⟨e, h1, h2, h3, h4, h5⟩ | ⟨h1, h2⟩
  · left
    exact ⟨e, h1, h3, by omega, by rw [← hexp]; exact h2, fun j a b => by rw [← hexp]; exact h5 j a b⟩
  · right
    refine ⟨h1, fun j hj => ?_⟩
    rcases Nat.eq_zero_or_pos x with h0 | h0
    · have := h2 1 (by omega) (by omega)
      rw [hexp] at this
      rwa [h0, Nat.zero_pow (by omega)] at this ⊢
    · -- exponents repeat with period 65536
      have hcop : Nat.Coprime x 65537 := ((Nat.Prime.coprime_iff_not_dvd prime65537).mpr (fun h => by have := Nat.le_of_dvd h0 h; omega)).symm
      have hper : x ^ j % 65537 = x ^ ((j - 1) % 65536 + 1) % 65537 := by
        have hf : x ^ 65536 ≡ 1 [MOD 65537] := by
          have := Nat.ModEq.pow_totient hcop
          rwa [Nat.totient_prime prime65537] at this
        have hd : j = 65536 * ((j - 1) / 65536) + ((j - 1) % 65536 + 1) := by omega
        have : x ^ j ≡ x ^ ((j - 1) % 65536 + 1) [MOD 65537] := by
          conv_lhs => rw [hd, pow_add, pow_mul]
          simpa using (hf.pow ((j - 1) / 65536)).mul_right (x ^ ((j - 1) % 65536 + 1))
        exact this
      rw [hper, ← hexp]
      exact h2 _ (by omega) (by omega)

theorem log_spec (H : IsNf4 N b n simd) {a : Nat} (ha : Packed n a) (c : Nat) :
    (∃ r, N.log a c = .ok r ∧ Packed n r ∧ ∀ l, l < n → 1 ≤ lane32 r l ∧
      lane32 a l ^ lane32 r l % 65537 = lane32 c l ∧ ∀ j, 1 ≤ j → j < lane32 r l → lane32 a l ^ j % 65537 ≠ lane32 c l) ∨
    (N.log a c = .error (.throws .noSolution) ∧ ∃ l, l < n ∧ ∀ j, 1 ≤ j → lane32 a l ^ j % 65537 ≠ lane32 c l) := by
  have h1 : ∀ l, l < n → _ := fun l hl => H.log1 (ha.lane l hl) (lane32 c l)
  unfold NF4.log
  rw [H.nn]
  let g : Nat → Nat → Nat := fun x y => match N.sub_field.ring.log x y with | .ok e => e | .error _ => 0
  by_cases hall : ∀ l, l < n → ∃ e, N.sub_field.ring.log (lane32 a l) (lane32 c l) = .ok e
  · left
    have hg : ∀ l, l < n → N.sub_field.ring.log (lane32 a l) (lane32 c l) = .ok (g (lane32 a l) (lane32 c l)) := by
      intro l hl
      obtain ⟨e, he⟩ := hall l hl
      simp only [g, he]
    have hs : ∀ l, l < n → 1 ≤ g (lane32 a l) (lane32 c l) ∧ g (lane32 a l) (lane32 c l) < 65537 ∧
        lane32 a l ^ g (lane32 a l) (lane32 c l) % 65537 = lane32 c l ∧
        ∀ j, 1 ≤ j → j < g (lane32 a l) (lane32 c l) → lane32 a l ^ j % 65537 ≠ lane32 c l := by
      intro l hl
      rcases h1 l hl with ⟨e, e1, e2, e3, e4, e5⟩ | ⟨e1, _⟩
      · rw [hg l hl] at e1
        rw [Except.ok.inj e1]
        exact ⟨e2, e3, e4, e5⟩
      · rw [hg l hl] at e1; cases e1
    have hw := word_packed (n := n) (f := fun l => g (lane32 a l) (lane32 c l)) (fun l hl => (hs l hl).2.1)
    refine ⟨word 32 n (fun l => g (lane32 a l) (lane32 c l)), ?_, hw.1, fun l hl => ?_⟩
    · rw [lanesR_ok (g := g) hg, ok_bind, H.expand32_eq (fun l hl => by have := (hs l hl).2.1; omega)]
      rfl
    · rw [hw.2 l hl]
      exact ⟨(hs l hl).1, (hs l hl).2.2⟩
  · right
    push Not at hall
    obtain ⟨l, hl, hn⟩ := hall
    have hno : N.sub_field.ring.log (lane32 a l) (lane32 c l) = .error (.throws .noSolution) ∧
        ∀ j, 1 ≤ j → lane32 a l ^ j % 65537 ≠ lane32 c l := by
      rcases h1 l hl with ⟨e, e1, _⟩ | h
      · exact absurd e1 (hn e)
      · exact h
    refine ⟨?_, l, hl, hno.2⟩
    rw [lanesR_throws (e := .throws .noSolution) (g := fun l => g (lane32 a l) (lane32 c l)) ?_ ⟨l, hl, hno.1⟩, error_bind]
    intro l hl
    rcases h1 l hl with ⟨e, e1, _⟩ | h
    · left; simp only [g, e1]
    · right; exact h.1

end Spec.IsNf4
end Quad
