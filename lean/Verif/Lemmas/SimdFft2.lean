import Verif.Lemmas.SimdFft
import Verif.Lemmas.BufOps

/-!
The vectorised transforms are equal to the scalar ones: two layers and stages.
-/

namespace Quad
namespace Radix2
open Simd

theorem stride_eq {s n st q : Nat} (hs : s < st) (hn : n = st * q) (hq : 0 < q) : stride s n st = q := by
  unfold stride
  subst hn
  have h1 : st ≤ st * q := Nat.le_mul_of_pos_right st hq
  have : st * q - s + (st - 1) = (st - 1 - s) + st * q := by omega
  rw [this, Nat.add_mul_div_left _ _ (by omega), Nat.div_eq_of_lt (by omega), Nat.zero_add]

theorem comp_comm3 {f a b c : (Nat → Nat) → Nat → Nat} (h1 : f ∘ a = a ∘ f) (h2 : f ∘ b = b ∘ f) :
    f ∘ (b ∘ a) = (b ∘ a) ∘ f := by
  rw [← Function.comp_assoc, h2, Function.comp_assoc, h1, Function.comp_assoc]

variable {rb w : Nat} (hR : RegSize rb) (hw : Lane w) {R : Radix2} (hF : R.F.ModP (P w)) {pkt : Nat} {mem : Array Nat} (hinj : InjPtr mem)

/-- the map of two layers on one column -/
def twoφ (p : Nat) (mem : Array Nat) (r1 r2 r3 start m t : Nat) : (Nat → Nat) → Nat → Nat :=
  ct2φ p r1 r2 r3 (gt mem (start + t * (4 * m))) (gt mem (start + t * (4 * m) + m)) (gt mem (start + t * (4 * m) + 2 * m))
    (gt mem (start + t * (4 * m) + 3 * m))

theorem turn_lt {s m t q n : Nat} (hs : s < 4 * m) (ht : t < q) (hn : n = 4 * m * q) : s + t * (4 * m) < n := by
  have : (t + 1) * (4 * m) ≤ q * (4 * m) := Nat.mul_le_mul_right _ ht
  have e : (t + 1) * (4 * m) = t * (4 * m) + 4 * m := by ring
  have e2 : q * (4 * m) = n := by rw [hn]; ring
  omega

theorem turn_ne {s s' m t t' : Nat} (hs : s < 4 * m) (hs' : s' < 4 * m) (ht : t ≠ t') : s + t * (4 * m) ≠ s' + t' * (4 * m) := by
  intro e
  rcases Nat.lt_or_gt_of_ne ht with h | h
  · have : (t + 1) * (4 * m) ≤ t' * (4 * m) := Nat.mul_le_mul_right _ h
    have e : (t + 1) * (4 * m) = t * (4 * m) + 4 * m := by ring
    omega
  · have : (t' + 1) * (4 * m) ≤ t * (4 * m) := Nat.mul_le_mul_right _ h
    have e : (t' + 1) * (4 * m) = t' * (4 * m) + 4 * m := by ring
    omega

include hinj in
/-- the four steps of two layers, column by column -/
theorem fuse4 {p r1 r2 r3 start m q : Nat} (hs : start < m) (hsz : mem.size = 4 * m * q) :
    compN (stepφ (ctφ p r3) mem (start + m) (2 * m) (4 * m)) q ∘ (compN (stepφ (ctφ p r2) mem start (2 * m) (4 * m)) q ∘
      (compN (stepφ (ctφ p r1) mem (start + 2 * m) m (4 * m)) q ∘ compN (stepφ (ctφ p r1) mem start m (4 * m)) q)) =
    compN (twoφ p mem r1 r2 r3 start m) q := by
  have key : ∀ (i j r r' a b c d : Nat), i < q → j < q → i ≠ j → a < 4 * m → b < 4 * m → c < 4 * m → d < 4 * m →
      ctφ p r (gt mem (a + j * (4 * m))) (gt mem (b + j * (4 * m))) ∘ ctφ p r' (gt mem (c + i * (4 * m))) (gt mem (d + i * (4 * m))) =
      ctφ p r' (gt mem (c + i * (4 * m))) (gt mem (d + i * (4 * m))) ∘ ctφ p r (gt mem (a + j * (4 * m))) (gt mem (b + j * (4 * m))) := by
    intro i j r r' a b c d hi hj hij ha hb hc hd
    have L : ∀ s t, s < 4 * m → t < q → s + t * (4 * m) < mem.size := fun s t h1 h2 => turn_lt h1 h2 hsz
    exact ctφ_comm (ptr_ne hinj (L a j ha hj) (L c i hc hi) (turn_ne ha hc (by omega))) (ptr_ne hinj (L a j ha hj) (L d i hd hi) (turn_ne ha hd (by omega)))
      (ptr_ne hinj (L b j hb hj) (L c i hc hi) (turn_ne hb hc (by omega))) (ptr_ne hinj (L b j hb hj) (L d i hd hi) (turn_ne hb hd (by omega)))
  have e1 : stepφ (ctφ p r1) mem start m (4 * m) = fun t => ctφ p r1 (gt mem (start + t * (4 * m))) (gt mem (start + m + t * (4 * m))) := by
    funext t; unfold stepφ; rw [show start + t * (4 * m) + m = start + m + t * (4 * m) by ring]
  have e2 : stepφ (ctφ p r1) mem (start + 2 * m) m (4 * m) = fun t => ctφ p r1 (gt mem (start + 2 * m + t * (4 * m))) (gt mem (start + 3 * m + t * (4 * m))) := by
    funext t; unfold stepφ; rw [show start + 2 * m + t * (4 * m) + m = start + 3 * m + t * (4 * m) by ring]
  have e3 : stepφ (ctφ p r2) mem start (2 * m) (4 * m) = fun t => ctφ p r2 (gt mem (start + t * (4 * m))) (gt mem (start + 2 * m + t * (4 * m))) := by
    funext t; unfold stepφ; rw [show start + t * (4 * m) + 2 * m = start + 2 * m + t * (4 * m) by ring]
  have e4 : stepφ (ctφ p r3) mem (start + m) (2 * m) (4 * m) = fun t => ctφ p r3 (gt mem (start + m + t * (4 * m))) (gt mem (start + 3 * m + t * (4 * m))) := by
    funext t; unfold stepφ; rw [show start + m + t * (4 * m) + 2 * m = start + 3 * m + t * (4 * m) by ring]
  rw [e1, e2, e3, e4]
  rw [compN_fuse (fun i j hi hj hij => key i j _ _ _ _ _ _ hi hj hij (by omega) (by omega) (by omega) (by omega))]
  rw [compN_fuse (fun i j hi hj hij => comp_comm3 (c := id) (key i j _ _ _ _ _ _ hi hj hij (by omega) (by omega) (by omega) (by omega))
    (key i j _ _ _ _ _ _ hi hj hij (by omega) (by omega) (by omega) (by omega)))]
  rw [compN_fuse (fun i j hi hj hij => comp_comm3 (c := id) (comp_comm3 (c := id)
    (key i j _ _ _ _ _ _ hi hj hij (by omega) (by omega) (by omega) (by omega))
    (key i j _ _ _ _ _ _ hi hj hij (by omega) (by omega) (by omega) (by omega)))
    (key i j _ _ _ _ _ _ hi hj hij (by omega) (by omega) (by omega) (by omega)))]
  refine compN_congr (fun t _ => ?_)
  unfold twoφ ct2φ
  rw [show start + t * (4 * m) + m = start + m + t * (4 * m) by ring, show start + t * (4 * m) + 2 * m = start + 2 * m + t * (4 * m) by ring,
    show start + t * (4 * m) + 3 * m = start + 3 * m + t * (4 * m) by ring]

theorem idx_half {start m q n : Nat} (hm : 0 < m) (hn : n = 4 * m * q) :
    start * n / m / 2 = start * (2 * q) ∧ start * n / m / 4 = start * q ∧ (start + m) * n / m / 4 = start * q + m * q ∧ n / 4 = m * q := by
  subst hn
  refine ⟨?_, ?_, ?_, ?_⟩
  · rw [show start * (4 * m * q) = start * (2 * q) * 2 * m by ring, Nat.mul_div_cancel _ hm, Nat.mul_div_cancel _ (by omega)]
  · rw [show start * (4 * m * q) = start * q * 4 * m by ring, Nat.mul_div_cancel _ hm, Nat.mul_div_cancel _ (by omega)]
  · rw [show (start + m) * (4 * m * q) = (start * q + m * q) * 4 * m by ring, Nat.mul_div_cancel _ hm, Nat.mul_div_cancel _ (by omega)]
  · rw [show 4 * m * q = m * q * 4 by ring, Nat.mul_div_cancel _ (by omega)]

theorem idx_bnd {start m q n : Nat} (hs : start < m) (hq : 0 < q) (hn : n = 4 * m * q) :
    start * (2 * q) < n ∧ start * q < n ∧ start * q + m * q < n := by
  have h1 : (start + 1) * q ≤ m * q := Nat.mul_le_mul_right _ hs
  have e1 : (start + 1) * q = start * q + q := by ring
  have e2 : n = 4 * (m * q) := by rw [hn]; ring
  have e3 : start * (2 * q) = 2 * (start * q) := by ring
  omega

section
variable (hsz : mem.size = R.n) (hWs : R.W.size = R.n) (hW : ∀ i, i < R.n → gt R.W i < P w)

theorem two_pres {p r1 r2 r3 start m q : Nat} (hp : 0 < p) (hs : start < m) (hsz : mem.size = 4 * m * q) :
    Pres p (blk mem) (compN (twoφ p mem r1 r2 r3 start m) q) := by
  have L : ∀ s t, s < 4 * m → t < q → s + t * (4 * m) < mem.size := fun s t h1 h2 => turn_lt h1 h2 hsz
  refine Pres.compN (fun t ht => ?_)
  have b0 := blk_mem (L start t (by omega) ht)
  have b1 := blk_mem (mem := mem) (i := start + t * (4 * m) + m) (by have := L (start + m) t (by omega) ht; omega)
  have b2 := blk_mem (mem := mem) (i := start + t * (4 * m) + 2 * m) (by have := L (start + 2 * m) t (by omega) ht; omega)
  have b3 := blk_mem (mem := mem) (i := start + t * (4 * m) + 3 * m) (by have := L (start + 3 * m) t (by omega) ht; omega)
  have p1 := Pres.comp (ctφ_pres (r := r1) hp b0 b1) (ctφ_pres (r := r1) hp b2 b3)
  have p2 := Pres.comp p1 (ctφ_pres (r := r2) hp b0 b2)
  have p3 := Pres.comp p2 (ctφ_pres (r := r3) hp b1 b3)
  exact p3

include hF hinj hw hsz hWs hW in
theorem ctTwoLayersSlow_cols {off start m q : Nat} (ho : off ≤ pkt) (hs : start < m) (hq : 0 < q) (hn : R.n = 4 * m * q) :
    Cols (P w) pkt (blk mem) (fun c => off ≤ c ∧ c < pkt) (compN (twoφ (P w) mem (gt R.W (start * (2 * q))) (gt R.W (start * q))
      (gt R.W (start * q + m * q)) start m) q) (R.ctTwoLayersSlow pkt mem off start m) := by
  have hp := P_pos hw
  obtain ⟨i1, i2, i3, _⟩ := idx_half (start := start) (by omega) hn
  obtain ⟨n1, n2, n3⟩ := idx_bnd hs hq hn
  have hsz' : mem.size = 4 * m * q := by omega
  have L : ∀ s t, s < 4 * m → t < q → s + t * (4 * m) < mem.size := fun s t h1 h2 => turn_lt h1 h2 hsz'
  have st : ∀ s, s < 4 * m → stride s R.n (4 * m) = q := fun s h => stride_eq h hn hq
  have c1 := ctStepSlow_cols (start := start) (m := m) (step := 4 * m) hw hF hinj ho (hW _ n1) (by omega) (by
    intro t ht; rw [st _ (by omega)] at ht; have := L (start + m) t (by omega) ht; omega)
  have c2 := ctStepSlow_cols (start := start + 2 * m) (m := m) (step := 4 * m) hw hF hinj ho (hW _ n1) (by omega) (by
    intro t ht; rw [st _ (by omega)] at ht; have := L (start + 3 * m) t (by omega) ht; omega)
  have c3 := ctStepSlow_cols (start := start) (m := 2 * m) (step := 4 * m) hw hF hinj ho (hW _ n2) (by omega) (by
    intro t ht; rw [st _ (by omega)] at ht; have := L (start + 2 * m) t (by omega) ht; omega)
  have c4 := ctStepSlow_cols (start := start + m) (m := 2 * m) (step := 4 * m) hw hF hinj ho (hW _ n3) (by omega) (by
    intro t ht; rw [st _ (by omega)] at ht; have := L (start + 3 * m) t (by omega) ht; omega)
  rw [st _ (by omega)] at c1 c2 c3 c4
  have sp : ∀ (r s d : Nat), s + d < 4 * m → Pres (P w) (blk mem) (compN (stepφ (ctφ (P w) r) mem s d (4 * m)) q) := by
    intro r s d hd
    refine Pres.compN (fun t ht => ctφ_pres hp (blk_mem (L s t (by omega) ht)) (blk_mem ?_))
    have := L (s + d) t hd ht; omega
  rw [← fuse4 hinj hs hsz']
  have p1 := sp (gt R.W (start * (2 * q))) start m (by omega)
  have p2 := Pres.comp p1 (sp (gt R.W (start * (2 * q))) (start + 2 * m) m (by omega))
  have p3 := Pres.comp p2 (sp (gt R.W (start * q)) start (2 * m) (by omega))
  have c := Cols.seq p3 (Cols.seq p2 (Cols.seq p1 c1 c2) c3) c4
  refine Cols.congr (fun _ => Iff.rfl) c (fun H _ => ?_)
  unfold ctTwoLayersSlow
  rw [i1, i2, i3, rd_gt (by omega), rd_gt (by omega), rd_gt (by omega)]
  simp only [ok_bind, bind_assoc]

include hR hF hinj hw hsz hWs hW in
theorem ctTwoLayersV_same {start m q : Nat} (hs : start < m) (hq : 0 < q) (hn : R.n = 4 * m * q) :
    Same (P w) pkt (blk mem) (R.ctTwoLayersV rb w pkt mem start m) (R.ctTwoLayersH pkt mem start m) := by
  have hp := P_pos hw
  have hr0 := (ratio_mul hR hw).2
  have hle : pkt / ratio rb w * ratio rb w ≤ pkt := Nat.div_mul_le_self _ _
  obtain ⟨i1, i2, i3, i4⟩ := idx_half (start := start) (by omega) hn
  obtain ⟨n1, n2, n3⟩ := idx_bnd hs hq hn
  have hsz' : mem.size = 4 * m * q := by omega
  have L : ∀ s t, s < 4 * m → t < q → s + t * (4 * m) < mem.size := fun s t h1 h2 => turn_lt h1 h2 hsz'
  have hH : R.ctTwoLayersH pkt mem start m = R.ctTwoLayersSlow pkt mem 0 start m := by
    unfold ctTwoLayersH ctTwoLayersSlow
    simp only [ctStepH_slow]
  set φ := compN (twoφ (P w) mem (gt R.W (start * (2 * q))) (gt R.W (start * q)) (gt R.W (start * q + m * q)) start m) q with hφ
  have hpres : Pres (P w) (blk mem) φ := two_pres hp hs hsz'
  refine Same.of_cols hpres ?_ (by rw [hH]; exact ctTwoLayersSlow_cols hw hF hinj hsz hWs hW (Nat.zero_le _) hs hq hn)
  have hv : R.ctTwoLayersV rb w pkt mem start m = fun H => Simd.butterfly_ct_two_layers_step rb w R.F.card mem (gt R.W (start * (2 * q)))
      (gt R.W (start * q)) (gt R.W (start * q + m * q)) start m (pkt / ratio rb w) H >>= fun H =>
      if pkt - pkt / ratio rb w * ratio rb w > 0 then R.ctTwoLayersSlow pkt mem (pkt / ratio rb w * ratio rb w) start m H else pure H := by
    funext H
    unfold ctTwoLayersV
    dsimp only
    rw [i1, show start * (2 * q) / 2 = start * q by rw [show start * (2 * q) = start * q * 2 by ring, Nat.mul_div_cancel _ (by omega)], i4,
      rd_gt (by omega), rd_gt (by omega), rd_gt (by omega)]
    rfl
  rw [hv]
  refine tail_cols hr0 hpres ?_ (ctTwoLayersSlow_cols hw hF hinj hsz hWs hW hle hs hq hn)
  unfold Simd.butterfly_ct_two_layers_step
  by_cases h0 : pkt / ratio rb w = 0
  · simp only [h0, if_true]
    intro H _
    exact ⟨H, rfl, rfl, fun _ => rfl, fun b c => by simp⟩
  simp only [if_neg h0]
  unfold forStep
  rw [hsz, stride_eq (by omega) hn hq]
  have tw : ∀ t, t < q → ∃ (b0 : start + t * (4 * m) < mem.size) (b1 : start + t * (4 * m) + m < mem.size)
      (b2 : start + t * (4 * m) + 2 * m < mem.size), start + t * (4 * m) + 3 * m < mem.size := by
    intro t ht
    have := L (start + 3 * m) t (by omega) ht
    refine ⟨?_, ?_, ?_, ?_⟩ <;> omega
  refine Cols.forN (fun t ht => ?_) (fun t ht => ?_)
  · obtain ⟨b0, b1, b2, b3⟩ := tw t ht
    have p1 := Pres.comp (ctφ_pres (r := gt R.W (start * (2 * q))) hp (blk_mem b0) (blk_mem b1)) (ctφ_pres (r := gt R.W (start * (2 * q))) hp (blk_mem b2) (blk_mem b3))
    have p2 := Pres.comp p1 (ctφ_pres (r := gt R.W (start * q)) hp (blk_mem b0) (blk_mem b2))
    have p3 := Pres.comp p2 (ctφ_pres (r := gt R.W (start * q + m * q)) hp (blk_mem b1) (blk_mem b3))
    exact p3
  · obtain ⟨b0, b1, b2, b3⟩ := tw t ht
    beta_reduce
    rw [rd_gt b0, rd_gt b1, rd_gt b2, rd_gt b3]
    simp only [ok_bind, unrolled_eq (show 0 < 2 by omega), hF.card]
    have p1 := Pres.comp (ctφ_pres (r := gt R.W (start * (2 * q))) hp (blk_mem b0) (blk_mem b1)) (ctφ_pres (r := gt R.W (start * (2 * q))) hp (blk_mem b2) (blk_mem b3))
    have p2 := Pres.comp p1 (ctφ_pres (r := gt R.W (start * q)) hp (blk_mem b0) (blk_mem b2))
    have p3 := Pres.comp p2 (ctφ_pres (r := gt R.W (start * q + m * q)) hp (blk_mem b1) (blk_mem b3))
    exact Cols.loop p3 (fun j hj => ct2Vec_cols hR hw (hW _ n1) (hW _ n2) (hW _ n3) (blk_mem b0) (blk_mem b1) (blk_mem b2) (blk_mem b3)
      (ptr_ne hinj b0 b1 (by omega)) (ptr_ne hinj b0 b2 (by omega)) (ptr_ne hinj b0 b3 (by omega)) (ptr_ne hinj b1 b2 (by omega))
      (ptr_ne hinj b1 b3 (by omega)) (ptr_ne hinj b2 b3 (by omega)) (turn_le hj))

variable {L : Nat} (hL : R.n = 2 ^ L)

include hR hF hinj hw hsz hWs hW hL in
theorem ctTwoStagesV_same : ∀ (fuel s : Nat) (H : Heap), Quad.Good (P w) pkt (blk mem) H →
    R.ctTwoStagesV rb w pkt mem fuel (2 ^ s) H = R.ctTwoStagesH pkt mem fuel (2 ^ s) H ∧
    ∀ m' H', R.ctTwoStagesH pkt mem fuel (2 ^ s) H = .ok (m', H') → Quad.Good (P w) pkt (blk mem) H' := by
  intro fuel
  induction fuel with
  | zero => intro s H _; exact ⟨rfl, fun m' H' e => by cases e⟩
  | succ fuel ih =>
    intro s H h
    unfold ctTwoStagesV ctTwoStagesH
    by_cases hm : 2 ^ s < R.n / 2
    · rw [if_pos hm, if_pos hm]
      have hs2 : s + 2 ≤ L := by
        by_contra hc
        have : 2 ^ L ≤ 2 ^ (s + 1) := Nat.pow_le_pow_right (by omega) (by omega)
        rw [pow_succ] at this
        omega
      have hn : R.n = 4 * 2 ^ s * 2 ^ (L - s - 2) := by
        rw [hL, show (4 : Nat) = 2 ^ 2 by rfl, ← pow_add, ← pow_add]; congr 1; omega
      obtain ⟨e, k⟩ := Same.forN (n := 2 ^ s) (fun j hj => ctTwoLayersV_same (pkt := pkt) hR hw hF hinj hsz hWs hW hj (by positivity) hn) H h
      dsimp only at e k
      rw [e]
      cases hx : forN (2 ^ s) H (fun j H => R.ctTwoLayersH pkt mem j (2 ^ s) H) with
      | error x => exact ⟨rfl, fun m' H' e => by simp at e⟩
      | ok H1 =>
        have e4 : 4 * 2 ^ s = 2 ^ (s + 2) := by rw [pow_add]; ring
        simp only [ok_bind, e4]
        exact ih (s + 2) H1 (k H1 hx)
    · rw [if_neg hm, if_neg hm]
      exact ⟨rfl, fun m' H' e => by cases e; exact h⟩

include hR hF hinj hw hsz hWs hW hL in
/-- the part of `fft` after the copy -/
theorem fftTail_eq {s : Nat} {H : Heap} (h : Quad.Good (P w) pkt (blk mem) H) :
    (do
      let (m, H) ← R.ctTwoStagesV rb w pkt mem (R.n + 1) (2 ^ s) H
      if m < R.n then do
        cassert (decide (m = R.n / 2))
        forN m H (fun j H => do
          let r ← rd R.W j
          R.ctStepV rb w pkt mem r j m R.n H)
      else pure H) =
    (do
      let (m, H) ← R.ctTwoStagesH pkt mem (R.n + 1) (2 ^ s) H
      if m < R.n then do
        cassert (decide (m = R.n / 2))
        forN m H (fun j H => do
          let r ← rd R.W j
          R.ctStepH pkt mem r j m R.n H)
      else pure H) := by
  obtain ⟨e, k⟩ := ctTwoStagesV_same (pkt := pkt) hR hw hF hinj hsz hWs hW hL (R.n + 1) s H h
  rw [e]
  cases hx : R.ctTwoStagesH pkt mem (R.n + 1) (2 ^ s) H with
  | error x => rfl
  | ok x =>
    obtain ⟨m, H1⟩ := x
    simp only [ok_bind]
    by_cases hm : m < R.n
    · rw [if_pos hm, if_pos hm]
      by_cases hm2 : m = R.n / 2
      · have hc : cassert (decide (m = R.n / 2)) = .ok () := by simp [cassert, hm2]
        simp only [hc, ok_bind]
        refine (Same.forN (n := m) (fun j hj => ?_) H1 (k m H1 hx)).1
        intro H2 h2
        dsimp only
        rw [rd_gt (by omega), ok_bind]
        have hst : stride j R.n R.n = 1 := stride_eq (by omega) (by omega) (by omega)
        exact ctStepV_same hR hw hF hinj hsz (hW j (by omega)) (by omega) (by
          intro t ht; rw [hst] at ht; have : t = 0 := by omega
          subst this; omega) H2 h2
      · have hc : cassert (decide (m = R.n / 2)) = .error .assertFail := by simp [cassert, hm2]
        simp only [hc, error_bind]
    · rw [if_neg hm, if_neg hm]

end
end Radix2
end Quad
