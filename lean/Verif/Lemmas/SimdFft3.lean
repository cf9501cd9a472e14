import Verif.Lemmas.SimdFft2

/-!
The vectorised inverse transform is equal to the scalar one.  The simplified
stages read buffers whose contents are not defined yet; what is computed from
these is overwritten.
-/

namespace Quad
namespace Radix2
open Simd

/-- the buffers of `mem` have `pkt` entries -/
def Sized (pkt : Nat) (mem : Array Nat) (H : Heap) : Prop :=
  ∀ i, i < mem.size → gt mem i < H.size ∧ (gt H (gt mem i)).size = pkt

/-- entries in the field -/
def Clean (p pkt : Nat) (H : Heap) (b : Nat) : Prop := ∀ c, c < pkt → el H b c < p

/-- on the columns of `S`, the blocks at `start + m`, `start + m + 2m`, ... become `r` times those at `start`, `start + 2m`, ...
when these are clean -/
def SStep (p pkt : Nat) (mem : Array Nat) (S : Nat → Prop) (r start m q : Nat) (op : Heap → Res Heap) : Prop :=
  ∀ H, Sized pkt mem H → ∃ H', op H = .ok H' ∧ H'.size = H.size ∧ (∀ b, (gt H' b).size = (gt H b).size) ∧
    (∀ b c, ¬ (S c ∧ ∃ t, t < q ∧ b = gt mem (start + t * (2 * m) + m)) → el H' b c = el H b c) ∧
    ∀ t, t < q → Clean p pkt H (gt mem (start + t * (2 * m))) → ∀ c, S c →
      el H' (gt mem (start + t * (2 * m) + m)) c = r * el H (gt mem (start + t * (2 * m))) c % p

/-- one pair of blocks -/
def SPair (p pkt : Nat) (S : Nat → Prop) (r a b : Nat) (op : Heap → Res Heap) : Prop :=
  ∀ H, a < H.size → b < H.size → (gt H a).size = pkt → (gt H b).size = pkt →
    ∃ H', op H = .ok H' ∧ H'.size = H.size ∧ (∀ b, (gt H' b).size = (gt H b).size) ∧
    (∀ b' c, ¬ (S c ∧ b' = b) → el H' b' c = el H b' c) ∧
    (Clean p pkt H a → ∀ c, S c → el H' b c = r * el H a c % p)

variable {pkt : Nat} {mem : Array Nat}

theorem SPair.loop {p r a b : Nat} (hab : a ≠ b) {S : Nat → Nat → Prop} {U : Nat → Prop} {n : Nat} {body : Nat → Heap → Res Heap}
    (hU : ∀ c, U c ↔ ∃ j, j < n ∧ S j c)
    (hdisj : ∀ i j c, S i c → S j c → i = j)
    (hb : ∀ j, j < n → SPair p pkt (S j) r a b (body j)) :
    SPair p pkt U r a b (fun H => forN n H body) := by
  intro H ha hb' hsa hsb
  obtain ⟨H', e, s, z, c1, c2⟩ := forN_inv (n := n) (s := H) (f := body)
    (I := fun k H' => H'.size = H.size ∧ (∀ b, (gt H' b).size = (gt H b).size) ∧
      (∀ b' c, ¬ ((∃ j, j < k ∧ S j c) ∧ b' = b) → el H' b' c = el H b' c) ∧
      (Clean p pkt H a → ∀ c, (∃ j, j < k ∧ S j c) → el H' b c = r * el H a c % p))
    ⟨rfl, fun _ => rfl, fun _ _ _ => rfl, fun _ c ⟨j, hj, _⟩ => absurd hj (by omega)⟩ (by
      rintro k H1 hk ⟨h1, h2, h3, h4⟩
      obtain ⟨H2, e2, s2, z2, g1, g2⟩ := hb k hk H1 (by omega) (by omega) (by rw [h2]; exact hsa) (by rw [h2]; exact hsb)
      have ea : ∀ c, el H1 a c = el H a c := fun c => h3 a c (fun h => hab h.2)
      refine ⟨H2, e2, by omega, fun b => (z2 b).trans (h2 b), fun b' c hc => ?_, fun hcl c hc => ?_⟩
      · rw [g1 b' c (fun h => hc ⟨⟨k, by omega, h.1⟩, h.2⟩), h3 b' c (fun h => hc ⟨?_, h.2⟩)]
        obtain ⟨j, hj, hs⟩ := h.1
        exact ⟨j, by omega, hs⟩
      · obtain ⟨j, hj, hs⟩ := hc
        by_cases hjk : j = k
        · subst hjk
          rw [g2 (fun c hc => by rw [ea]; exact hcl c hc) c hs, ea]
        · rw [g1 b c (fun h => hjk (hdisj _ _ _ hs h.1))]
          exact h4 hcl c ⟨j, by omega, hs⟩)
  exact ⟨H', e, s, z, fun b' c h => c1 b' c (fun h' => h ⟨(hU c).mpr h'.1, h'.2⟩), fun h c hc => c2 h c ((hU c).mp hc)⟩

variable {rb w : Nat} (hR : RegSize rb) (hw : Lane w) {R : Radix2} (hF : R.F.ModP (P w)) (hinj : InjPtr mem)

include hR hw in
theorem gsSimpleVec_pair {r a b j : Nat} (hr : r < P w) (hj : (j + 1) * ratio rb w ≤ pkt) :
    SPair (P w) pkt (fun c => j * ratio rb w ≤ c ∧ c < (j + 1) * ratio rb w) r a b (gsSimpleVec rb w (P w) r a b j) := by
  intro H ha hb hsa hsb
  have ex : (j + 1) * ratio rb w = j * ratio rb w + ratio rb w := by ring
  obtain ⟨x, e⟩ : ∃ x, loadReg rb w H a j = .ok x := ⟨_, by unfold loadReg; rw [rd_gt ha, ok_bind, if_pos (by omega)]⟩
  obtain ⟨H', e', s, z, g⟩ := storeReg_el (R := rb) (w := w) (H := H) (d := b)
    (x := butterfly_simple_gs w (get_case r (P w)) (set_one w r) x) (j := j) hb (by omega)
  refine ⟨H', by unfold gsSimpleVec; rw [e, ok_bind, e'], s, z, fun b' c h => ?_, fun hcl c hc => ?_⟩
  · rw [g, if_neg (fun h' => h ⟨h'.2, h'.1⟩)]
  · obtain ⟨x', e2, hx⟩ := loadReg_el hR hw (H := H) (s := a) (j := j) ha (by omega) (fun c hc => hcl c (by omega))
    rw [e] at e2; cases e2
    rw [g, if_pos ⟨rfl, hc⟩]
    have hl := hx (c - j * ratio rb w) (by omega)
    rw [Nat.add_sub_cancel' hc.1] at hl
    rw [lane_gs_simple hw hr (by rw [hl]; exact hcl c (by omega)), hl]

include hF in
theorem gsSimpleEl_pair {r a b j : Nat} (hr : r < P w) (hj : j < pkt) :
    SPair (P w) pkt (fun c => c = j) r a b (fun H => do
      let aj ← Heap.rdEl H a j
      Heap.wrEl H b j (R.F.mul r aj)) := by
  intro H ha hb hsa hsb
  obtain ⟨H', e', s, z, g⟩ := wrEl_el (H := H) (d := b) (j := j) (x := R.F.mul r (el H a j)) hb (by omega)
  refine ⟨H', ?_, s, z, fun b' c h => ?_, fun hcl c hc => ?_⟩
  · dsimp only; rw [Heap.rdEl_ok (j := j) ha (by omega), ok_bind]; exact e'
  · rw [g, if_neg (fun h' => h ⟨h'.2, h'.1⟩)]
  · rw [g, if_pos ⟨rfl, hc⟩, hF.mul _ _ hr (hcl j hj), hc]

include hinj in
/-- a loop over the pairs of a step -/
theorem SStep.of_pairs {p r start m q n : Nat} {S : Nat → Prop} {op : Nat → Heap → Res Heap} (hm : 0 < m) (hs : start < m)
    (hq : 0 < q) (hn : n = 2 * m * q) (hsz : mem.size = n)
    (h : ∀ i, i + m < mem.size → SPair p pkt S r (gt mem i) (gt mem (i + m)) (op i)) :
    SStep p pkt mem S r start m q (fun H => forStep start n (2 * m) H op) := by
  intro H hS
  have hst : stride start n (2 * m) = q := stride_eq (by omega) hn hq
  have L : ∀ t, t < q → start + t * (2 * m) + m < mem.size := by
    intro t ht
    have : (t + 1) * (2 * m) ≤ q * (2 * m) := Nat.mul_le_mul_right _ ht
    have e1 : (t + 1) * (2 * m) = t * (2 * m) + 2 * m := by ring
    have e2 : q * (2 * m) = n := by rw [hn]; ring
    omega
  have ne : ∀ t t', t * (2 * m) + start ≠ t' * (2 * m) + start + m := by
    intro t t' he
    rcases Nat.lt_trichotomy t t' with h | h | h
    · have : (t + 1) * (2 * m) ≤ t' * (2 * m) := Nat.mul_le_mul_right _ h
      have e1 : (t + 1) * (2 * m) = t * (2 * m) + 2 * m := by ring
      omega
    · subst h; omega
    · have : (t' + 1) * (2 * m) ≤ t * (2 * m) := Nat.mul_le_mul_right _ h
      have e1 : (t' + 1) * (2 * m) = t' * (2 * m) + 2 * m := by ring
      omega
  have inj2 : ∀ t t', t < q → t' < q → gt mem (start + t * (2 * m) + m) = gt mem (start + t' * (2 * m) + m) → t = t' := by
    intro t t' h1 h2 he
    have := hinj _ _ (L t h1) (L t' h2) he
    have h3 : t * (2 * m) = t' * (2 * m) := by omega
    exact Nat.eq_of_mul_eq_mul_right (by omega) h3
  have src : ∀ t t', t < q → t' < q → gt mem (start + t * (2 * m)) ≠ gt mem (start + t' * (2 * m) + m) := by
    intro t t' h1 h2
    exact ptr_ne hinj (by have := L t h1; omega) (L t' h2) (by have := ne t t'; omega)
  unfold forStep
  dsimp only
  rw [hst]
  obtain ⟨H', e, s, z, c1, c2⟩ := forN_inv (n := q) (s := H) (f := fun t H => op (start + t * (2 * m)) H)
    (I := fun k H' => H'.size = H.size ∧ (∀ b, (gt H' b).size = (gt H b).size) ∧
      (∀ b c, ¬ (S c ∧ ∃ t, t < k ∧ b = gt mem (start + t * (2 * m) + m)) → el H' b c = el H b c) ∧
      ∀ t, t < k → Clean p pkt H (gt mem (start + t * (2 * m))) → ∀ c, S c →
        el H' (gt mem (start + t * (2 * m) + m)) c = r * el H (gt mem (start + t * (2 * m))) c % p)
    ⟨rfl, fun _ => rfl, fun _ _ _ => rfl, fun t ht => absurd ht (by omega)⟩ (by
      rintro k H1 hk ⟨h1, h2, h3, h4⟩
      have b1 := hS (start + k * (2 * m)) (by have := L k hk; omega)
      have b2 := hS (start + k * (2 * m) + m) (L k hk)
      obtain ⟨H2, e2, s2, z2, g1, g2⟩ := h (start + k * (2 * m)) (L k hk) H1 (by omega) (by omega) (by rw [h2]; exact b1.2) (by rw [h2]; exact b2.2)
      have ea : ∀ c, el H1 (gt mem (start + k * (2 * m))) c = el H (gt mem (start + k * (2 * m))) c := fun c => h3 _ c (by
        rintro ⟨_, t, ht, he⟩
        exact src k t hk (by omega) he)
      refine ⟨H2, e2, by omega, fun b => (z2 b).trans (h2 b), fun b c hc => ?_, fun t ht hcl c hc => ?_⟩
      · rw [g1 b c (fun h => hc ⟨h.1, k, by omega, h.2⟩), h3 b c]
        rintro ⟨h5, t, ht, he⟩
        exact hc ⟨h5, t, by omega, he⟩
      · by_cases htk : t = k
        · subst htk
          rw [g2 (fun c hc => by rw [ea]; exact hcl c hc) c hc, ea]
        · rw [g1 _ c (fun h => htk (inj2 t k (by omega) hk h.2))]
          exact h4 t (by omega) hcl c hc)
  exact ⟨H', e, s, z, c1, c2⟩

/-- two sets of columns -/
theorem SStep.union {p r start m q n : Nat} {S T U : Nat → Prop} {f g : Heap → Res Heap} (hinj : InjPtr mem) (hm : 0 < m) (hs : start < m)
    (hn : n = 2 * m * q) (hsz : mem.size = n)
    (hU : ∀ c, U c ↔ S c ∨ T c) (hd : ∀ c, S c → ¬ T c)
    (hf : SStep p pkt mem S r start m q f) (hg : SStep p pkt mem T r start m q g) :
    SStep p pkt mem U r start m q (fun H => f H >>= g) := by
  intro H hS
  obtain ⟨H1, e1, s1, z1, g1, k1⟩ := hf H hS
  obtain ⟨H2, e2, s2, z2, g2, k2⟩ := hg H1 (fun i hi => ⟨by rw [s1]; exact (hS i hi).1, by rw [z1]; exact (hS i hi).2⟩)
  have L : ∀ t, t < q → start + t * (2 * m) + m < mem.size := by
    intro t ht
    have : (t + 1) * (2 * m) ≤ q * (2 * m) := Nat.mul_le_mul_right _ ht
    have e1 : (t + 1) * (2 * m) = t * (2 * m) + 2 * m := by ring
    have e2 : q * (2 * m) = n := by rw [hn]; ring
    omega
  have src : ∀ t t', t < q → t' < q → gt mem (start + t * (2 * m)) ≠ gt mem (start + t' * (2 * m) + m) := by
    intro t t' h1 h2
    refine ptr_ne hinj (by have := L t h1; omega) (L t' h2) (fun he => ?_)
    rcases Nat.lt_trichotomy t t' with h | h | h
    · have : (t + 1) * (2 * m) ≤ t' * (2 * m) := Nat.mul_le_mul_right _ h
      have e1 : (t + 1) * (2 * m) = t * (2 * m) + 2 * m := by ring
      omega
    · subst h; omega
    · have : (t' + 1) * (2 * m) ≤ t * (2 * m) := Nat.mul_le_mul_right _ h
      have e1 : (t' + 1) * (2 * m) = t' * (2 * m) + 2 * m := by ring
      omega
  have ea : ∀ t, t < q → ∀ c, el H1 (gt mem (start + t * (2 * m))) c = el H (gt mem (start + t * (2 * m))) c := fun t ht c => g1 _ c (by
    rintro ⟨_, t', ht', he⟩
    exact src t t' ht ht' he)
  refine ⟨H2, by dsimp only; rw [e1, ok_bind, e2], by omega, fun b => (z2 b).trans (z1 b), fun b c h => ?_, fun t ht hcl c hc => ?_⟩
  · rw [g2 b c (fun h' => h ⟨(hU c).mpr (.inr h'.1), h'.2⟩), g1 b c (fun h' => h ⟨(hU c).mpr (.inl h'.1), h'.2⟩)]
  · by_cases hc' : S c
    · rw [g2 _ c (fun h => hd c hc' h.1)]
      exact k1 t ht hcl c hc'
    · have hT : T c := ((hU c).mp hc).resolve_left hc'
      rw [k2 t ht (fun c hc => by rw [ea t ht]; exact hcl c hc) c hT, ea t ht]

include hF hinj in
theorem gsSimpleSlow_step (hsz : mem.size = R.n) {off r start m q : Nat} (hr : r < P w) (hs : start < m) (hq : 0 < q)
    (hn : R.n = 2 * m * q) :
    SStep (P w) pkt mem (fun c => off ≤ c ∧ c < pkt) r start m q (R.gsSimpleStepSlow pkt mem off r start m (2 * m)) := by
  refine SStep.of_pairs hinj (by omega) hs hq hn hsz (fun i hi => ?_)
  rw [rd_gt (show i < mem.size by omega), rd_gt hi]
  simp only [ok_bind]
  unfold forStep
  have hst : stride off pkt 1 = pkt - off := by unfold stride; omega
  rw [hst]
  refine SPair.loop (S := fun j c => c = off + j * 1) (ptr_ne hinj (by omega) hi (by omega)) (fun c => ?_) (fun i j c h1 h2 => by omega)
    (fun j hj => gsSimpleEl_pair hF hr (by omega))
  constructor
  · rintro ⟨h1, h2⟩; exact ⟨c - off, by omega, by omega⟩
  · rintro ⟨j, h1, h2⟩; omega

theorem gsSimpleH_slow {r start m step : Nat} : (fun H => forStep start R.n step H (fun i H => R.gsSimplePairH pkt mem r m i H)) =
    R.gsSimpleStepSlow pkt mem 0 r start m step := by
  unfold gsSimpleStepSlow gsSimplePairH
  simp only [forStep_zero]

include hR hw hF hinj in
theorem gsSimpleV_step (hsz : mem.size = R.n) {r start m q : Nat} (hr : r < P w) (hs : start < m) (hq : 0 < q)
    (hn : R.n = 2 * m * q) :
    SStep (P w) pkt mem (fun c => 0 ≤ c ∧ c < pkt) r start m q (R.gsSimpleStepV rb w pkt mem r start m (2 * m)) := by
  have hr0 := (ratio_mul hR hw).2
  have hle : pkt / ratio rb w * ratio rb w ≤ pkt := Nat.div_mul_le_self _ _
  have hvec : SStep (P w) pkt mem (fun c => c < pkt / ratio rb w * ratio rb w) r start m q
      (Simd.butterfly_gs_step_simple rb w R.F.card mem r start m (pkt / ratio rb w)) := by
    unfold Simd.butterfly_gs_step_simple
    by_cases h0 : pkt / ratio rb w = 0
    · simp only [h0, if_true]
      intro H _
      exact ⟨H, rfl, rfl, fun _ => rfl, fun _ _ _ => rfl, fun t _ _ c hc => by simp at hc⟩
    simp only [if_neg h0]
    refine SStep.of_pairs hinj (by omega) hs hq (by omega) rfl (fun i hi => ?_)
    rw [rd_gt (show i < mem.size by omega), rd_gt hi]
    simp only [ok_bind, hF.card]
    refine SPair.loop (S := fun j c => j * ratio rb w ≤ c ∧ c < (j + 1) * ratio rb w) (ptr_ne hinj (by omega) hi (by omega))
      (fun c => ?_) (fun i j c h1 h2 => ?_) (fun j hj => gsSimpleVec_pair hR hw hr (turn_le hj))
    · constructor
      · intro h
        refine ⟨c / ratio rb w, ?_, Nat.div_mul_le_self _ _, ?_⟩
        · exact (Nat.div_lt_iff_lt_mul hr0).mpr h
        · have := Nat.lt_mul_div_succ c hr0
          rwa [Nat.mul_comm] at this
      · rintro ⟨j, h1, h2, h3⟩
        have : (j + 1) * ratio rb w ≤ pkt / ratio rb w * ratio rb w := Nat.mul_le_mul_right _ h1
        omega
    · by_contra hne
      rcases Nat.lt_or_gt_of_ne hne with h | h
      · have : (i + 1) * ratio rb w ≤ j * ratio rb w := Nat.mul_le_mul_right _ h
        omega
      · have : (j + 1) * ratio rb w ≤ i * ratio rb w := Nat.mul_le_mul_right _ h
        omega
  unfold gsSimpleStepV
  dsimp only
  by_cases h : pkt - pkt / ratio rb w * ratio rb w > 0
  · simp only [if_pos h]
    exact SStep.union hinj (by omega) hs (by omega) rfl (fun c => by omega) (fun c hc => by omega) hvec
      (gsSimpleSlow_step hF hinj hsz hr hs hq hn)
  · simp only [if_neg h]
    intro H hS
    obtain ⟨H1, e1, s1, z1, g1, k1⟩ := hvec H hS
    refine ⟨H1, by dsimp only; rw [e1]; rfl, s1, z1, fun b c hc => g1 b c (fun h' => hc ⟨by omega, h'.2⟩), fun t ht hcl c hc => k1 t ht hcl c (by omega)⟩

/-- a stage of simplified butterflies -/
def SStage (p pkt : Nat) (mem : Array Nat) (r : Nat → Nat) (m : Nat) (op : Heap → Res Heap) : Prop :=
  ∀ H, Sized pkt mem H → ∃ H', op H = .ok H' ∧ H'.size = H.size ∧ (∀ b, (gt H' b).size = (gt H b).size) ∧
    (∀ b c, ¬ blk mem b → el H' b c = el H b c) ∧
    (∀ x, x < mem.size → x % (2 * m) < m → ∀ c, el H' (gt mem x) c = el H (gt mem x) c) ∧
    ∀ x, x < mem.size → m ≤ x % (2 * m) → Clean p pkt H (gt mem (x - m)) → ∀ c, c < pkt →
      el H' (gt mem x) c = r (x % (2 * m) - m) * el H (gt mem (x - m)) c % p

include hinj in
theorem SStage.of_steps {p m q : Nat} {r : Nat → Nat} {op : Nat → Heap → Res Heap} (hq : 0 < q) (hsz : mem.size = 2 * m * q)
    (h : ∀ j, j < m → SStep p pkt mem (fun c => 0 ≤ c ∧ c < pkt) (r j) j m q (op j)) :
    SStage p pkt mem r m (fun H => forN m H op) := by
  intro H hS
  have L : ∀ j t, j < m → t < q → j + t * (2 * m) + m < mem.size := by
    intro j t hj ht
    have : (t + 1) * (2 * m) ≤ q * (2 * m) := Nat.mul_le_mul_right _ ht
    have e1 : (t + 1) * (2 * m) = t * (2 * m) + 2 * m := by ring
    have e2 : q * (2 * m) = mem.size := by rw [hsz]; ring
    omega
  have md : ∀ j t, j < m → (j + t * (2 * m) + m) % (2 * m) = j + m := by
    intro j t hj
    rw [show j + t * (2 * m) + m = j + m + 2 * m * t by ring, Nat.add_mul_mod_self_left, Nat.mod_eq_of_lt (by omega)]
  have dec : ∀ x, x < mem.size → m ≤ x % (2 * m) → x = (x % (2 * m) - m) + x / (2 * m) * (2 * m) + m ∧ x / (2 * m) < q ∧
      x - m = (x % (2 * m) - m) + x / (2 * m) * (2 * m) := by
    intro x hx hxm
    have h1 := Nat.mod_add_div x (2 * m)
    have h2 : 2 * m * (x / (2 * m)) = x / (2 * m) * (2 * m) := by ring
    refine ⟨by omega, ?_, by omega⟩
    rw [hsz] at hx
    exact Nat.div_lt_of_lt_mul hx
  obtain ⟨H', e, s, z, c1, c2, c3⟩ := forN_inv (n := m) (s := H) (f := op)
    (I := fun k H' => H'.size = H.size ∧ (∀ b, (gt H' b).size = (gt H b).size) ∧
      (∀ b c, ¬ blk mem b → el H' b c = el H b c) ∧
      (∀ x, x < mem.size → (x % (2 * m) < m ∨ m + k ≤ x % (2 * m)) → ∀ c, el H' (gt mem x) c = el H (gt mem x) c) ∧
      ∀ x, x < mem.size → m ≤ x % (2 * m) → x % (2 * m) < m + k → Clean p pkt H (gt mem (x - m)) → ∀ c, c < pkt →
        el H' (gt mem x) c = r (x % (2 * m) - m) * el H (gt mem (x - m)) c % p)
    ⟨rfl, fun _ => rfl, fun _ _ _ => rfl, fun _ _ _ _ => rfl, fun x _ h1 h2 => by omega⟩ (by
      rintro k H1 hk ⟨h1, h2, h3, h4, h5⟩
      obtain ⟨H2, e2, s2, z2, g1, g2⟩ := h k hk H1 (fun i hi => ⟨by rw [h1]; exact (hS i hi).1, by rw [h2]; exact (hS i hi).2⟩)
      refine ⟨H2, e2, by omega, fun b => (z2 b).trans (h2 b), fun b c hb => ?_, fun x hx hxm c => ?_, fun x hx hm1 hm2 hcl c hc => ?_⟩
      · rw [g1 b c, h3 b c hb]
        rintro ⟨_, t, ht, he⟩
        exact hb ⟨_, L k t hk ht, he⟩
      · rw [g1 _ c, h4 x hx (by omega) c]
        rintro ⟨_, t, ht, he⟩
        have := hinj _ _ hx (L k t hk ht) he
        have := md k t hk
        subst x
        omega
      · by_cases hxk : x % (2 * m) = m + k
        · obtain ⟨d1, d2, d3⟩ := dec x hx hm1
          have ek : x % (2 * m) - m = k := by omega
          rw [ek] at d1 d3 ⊢
          have em : (x - m) % (2 * m) < m := by
            rw [d3, show k + x / (2 * m) * (2 * m) = k + 2 * m * (x / (2 * m)) by ring, Nat.add_mul_mod_self_left, Nat.mod_eq_of_lt (by omega)]
            exact hk
          have ea : ∀ c, el H1 (gt mem (x - m)) c = el H (gt mem (x - m)) c := fun c => h4 (x - m) (by omega) (.inl em) c
          have := g2 (x / (2 * m)) d2 (by rw [← d3]; exact fun c hc => by rw [ea]; exact hcl c hc) c ⟨Nat.zero_le _, hc⟩
          rw [← d1, ← d3, ea] at this
          exact this
        · rw [g1 _ c]
          · exact h5 x hx hm1 (by omega) hcl c hc
          · rintro ⟨_, t, ht, he⟩
            have := hinj _ _ hx (L k t hk ht) he
            have := md k t hk
            subst x
            omega)
  exact ⟨H', e, s, z, c1, fun x hx h => c2 x hx (.inl h), fun x hx h hcl c hc => c3 x hx h (by
    have := Nat.mod_lt x (show 0 < 2 * m by rcases Nat.eq_zero_or_pos m with rfl | h'; · rw [hsz] at hx; simp at hx
                                            · omega)
    omega) hcl c hc⟩

/-- two states of memory that agree on the defined buffers -/
structure Agree (p pkt : Nat) (mem : Array Nat) (C : Nat → Prop) (H1 H2 : Heap) : Prop where
  size : H1.size = H2.size
  sizes : ∀ b, (gt H1 b).size = (gt H2 b).size
  out : ∀ b c, ¬ blk mem b → el H1 b c = el H2 b c
  sized : Sized pkt mem H2
  eq : ∀ i, i < mem.size → C i → ∀ c, el H1 (gt mem i) c = el H2 (gt mem i) c
  clean : ∀ i, i < mem.size → C i → Clean p pkt H2 (gt mem i)

theorem Agree.sized1 {p : Nat} {C : Nat → Prop} {H1 H2 : Heap} (h : Agree p pkt mem C H1 H2) : Sized pkt mem H1 :=
  fun i hi => ⟨by rw [h.size]; exact (h.sized i hi).1, by rw [h.sizes]; exact (h.sized i hi).2⟩

theorem Agree.stage {p m d : Nat} (hp : 0 < p) {r : Nat → Nat} {f g : Heap → Res Heap} (hd : d ≤ m)
    (hf : SStage p pkt mem r m f) (hg : SStage p pkt mem r m g) {H1 H2 : Heap} (h : Agree p pkt mem (fun x => x % (2 * m) < d) H1 H2) :
    ∃ H1' H2', f H1 = .ok H1' ∧ g H2 = .ok H2' ∧ Agree p pkt mem (fun x => x % m < d) H1' H2' := by
  obtain ⟨H1', e1, s1, z1, o1, a1, b1⟩ := hf H1 h.sized1
  obtain ⟨H2', e2, s2, z2, o2, a2, b2⟩ := hg H2 h.sized
  have hs2 : Sized pkt mem H2' := fun i hi => ⟨by rw [s2]; exact (h.sized i hi).1, by rw [z2]; exact (h.sized i hi).2⟩
  have cases : ∀ x, x % m < d → (x % (2 * m) < m ∧ x % (2 * m) < d) ∨ (m ≤ x % (2 * m) ∧ (x - m) % (2 * m) < d) := by
    intro x hx
    have hmm : x % (2 * m) % m = x % m := Nat.mod_mod_of_dvd _ (Dvd.intro_left 2 rfl)
    rcases Nat.eq_zero_or_pos m with rfl | hm
    · simp at *; omega
    by_cases hlt : x % (2 * m) < m
    · rw [Nat.mod_eq_of_lt hlt] at hmm
      left; omega
    · right
      have hlt2 := Nat.mod_lt x (show 0 < 2 * m by omega)
      have h1 := Nat.mod_add_div x (2 * m)
      have e : x - m = (x % (2 * m) - m) + 2 * m * (x / (2 * m)) := by omega
      have e2 : x % (2 * m) % m = x % (2 * m) - m := by
        rw [Nat.mod_eq_sub_mod (by omega), Nat.mod_eq_of_lt (by omega)]
      refine ⟨by omega, ?_⟩
      rw [e, Nat.add_mul_mod_self_left, Nat.mod_eq_of_lt (by omega)]
      omega
  have cl1 : ∀ i, i < mem.size → i % (2 * m) < d → Clean p pkt H1 (gt mem i) := fun i hi hc c hcc => by
    rw [h.eq i hi hc]; exact h.clean i hi hc c hcc
  refine ⟨H1', H2', e1, e2, ⟨by rw [s1, s2, h.size], fun b => by rw [z1, z2, h.sizes], fun b c hb => by rw [o1 b c hb, o2 b c hb, h.out b c hb],
    hs2, fun x hx hc c => ?_, fun x hx hc c hcc => ?_⟩⟩
  · rcases cases x hc with ⟨h1, h2⟩ | ⟨h1, h2⟩
    · rw [a1 x hx h1, a2 x hx h1, h.eq x hx h2]
    · by_cases hcp : c < pkt
      · rw [b1 x hx h1 (cl1 (x - m) (by omega) h2) c hcp, b2 x hx h1 (h.clean (x - m) (by omega) h2) c hcp, h.eq (x - m) (by omega) h2]
      · unfold el
        rw [gt_oob (by rw [z1, (h.sized1 x hx).2]; omega), gt_oob (by rw [(hs2 x hx).2]; omega)]
  · rcases cases x hc with ⟨h1, h2⟩ | ⟨h1, h2⟩
    · rw [a2 x hx h1]; exact h.clean x hx h2 c hcc
    · rw [b2 x hx h1 (h.clean (x - m) (by omega) h2) c hcc]
      exact Nat.mod_lt _ hp

section
variable (hsz : mem.size = R.n) (hWs : R.inv_W.size = R.n) (hW : ∀ i, i < R.n → gt R.inv_W i < P w) {L : Nat} (hL : R.n = 2 ^ L)

theorem Agree.all {p : Nat} {C : Nat → Prop} (hC : ∀ x, x < mem.size → C x) {H1 H2 : Heap} (h : Agree p pkt mem C H1 H2) :
    H1 = H2 ∧ Quad.Good p pkt (blk mem) H2 := by
  refine ⟨heap_ext h.size h.sizes (fun b c => ?_), ?_⟩
  · by_cases hb : blk mem b
    · obtain ⟨i, hi, rfl⟩ := hb
      exact h.eq i hi (hC i hi) c
    · exact h.out b c hb
  · rintro b ⟨i, hi, rfl⟩
    exact ⟨(h.sized i hi).1, (h.sized i hi).2, h.clean i hi (hC i hi)⟩

theorem idx_gs {j m q n : Nat} (hj : j < m) (hq : 0 < q) (hn : n = 2 * m * q) : j * n / (2 * m) = j * q ∧ j * q < n := by
  subst hn
  constructor
  · rw [show j * (2 * m * q) = j * q * (2 * m) by ring, Nat.mul_div_cancel _ (by omega)]
  · have h1 : (j + 1) * q ≤ m * q := Nat.mul_le_mul_right _ hj
    have e1 : (j + 1) * q = j * q + q := by ring
    have e2 : 2 * m * q = 2 * (m * q) := by ring
    omega

include hR hw hF hinj hsz hWs hW hL in
theorem gsSimpleStagesV_eq {len e : Nat} (h0 : 0 < len) (hlen : len ≤ 2 ^ e) (hmin : ∀ s, len ≤ 2 ^ s → e ≤ s) :
    ∀ (fuel s : Nat) (H1 H2 : Heap), s + 1 ≤ L → e ≤ s + 1 → Agree (P w) pkt mem (fun x => x % 2 ^ (s + 1) < 2 ^ e) H1 H2 →
    R.gsSimpleStagesV rb w pkt mem len fuel (2 ^ s) H1 = R.gsSimpleStagesH pkt mem len fuel (2 ^ s) H2 ∧
    ∀ m' H', R.gsSimpleStagesH pkt mem len fuel (2 ^ s) H2 = .ok (m', H') →
      Quad.Good (P w) pkt (blk mem) H' ∧ (m' = 0 ∨ ∃ s', s' + 1 ≤ L ∧ m' = 2 ^ s') := by
  have hp := P_pos hw
  intro fuel
  induction fuel with
  | zero => intro s H1 H2 _ _ _; exact ⟨rfl, fun m' H' e => by cases e⟩
  | succ fuel ih =>
    intro s H1 H2 hs he hA
    unfold gsSimpleStagesV gsSimpleStagesH
    by_cases hm : 2 ^ s ≥ len
    · rw [if_pos hm, if_pos hm]
      dsimp only
      have hes := hmin s hm
      have hn : R.n = 2 * 2 ^ s * 2 ^ (L - s - 1) := by
        rw [hL, show (2 : Nat) * 2 ^ s = 2 ^ (s + 1) by ring, ← pow_add]; congr 1; omega
      have hq : 0 < 2 ^ (L - s - 1) := by positivity
      have rdW : ∀ j, j < 2 ^ s → rd R.inv_W (j * R.n / (2 * 2 ^ s)) = .ok (gt R.inv_W (j * 2 ^ (L - s - 1))) := by
        intro j hj
        obtain ⟨i1, i2⟩ := idx_gs hj hq hn
        rw [i1, rd_gt (by omega)]
      have stV : SStage (P w) pkt mem (fun j => gt R.inv_W (j * 2 ^ (L - s - 1))) (2 ^ s) (fun H => forN (2 ^ s) H (fun j H => do
          let r ← rd R.inv_W (j * R.n / (2 * 2 ^ s))
          R.gsSimpleStepV rb w pkt mem r j (2 ^ s) (2 * 2 ^ s) H)) := by
        refine SStage.of_steps hinj hq (by omega) (fun j hj => ?_)
        rw [rdW j hj]
        exact gsSimpleV_step hR hw hF hinj hsz (hW _ (idx_gs hj hq hn).2) hj hq hn
      have stH : SStage (P w) pkt mem (fun j => gt R.inv_W (j * 2 ^ (L - s - 1))) (2 ^ s) (fun H => forN (2 ^ s) H (fun j H => do
          let r ← rd R.inv_W (j * R.n / (2 * 2 ^ s))
          forStep j R.n (2 * 2 ^ s) H (fun i H => R.gsSimplePairH pkt mem r (2 ^ s) i H))) := by
        refine SStage.of_steps hinj hq (by omega) (fun j hj => ?_)
        rw [rdW j hj]
        have := gsSimpleSlow_step (pkt := pkt) (off := 0) hF hinj hsz (hW _ (idx_gs hj hq hn).2) hj hq hn
        rw [← gsSimpleH_slow] at this
        exact this
      have hA' : Agree (P w) pkt mem (fun x => x % (2 * 2 ^ s) < 2 ^ e) H1 H2 := by
        rw [show (2 : Nat) * 2 ^ s = 2 ^ (s + 1) by ring]; exact hA
      obtain ⟨H1', H2', e1, e2, A⟩ := Agree.stage hp (Nat.pow_le_pow_right (by omega) hes) stV stH hA'
      rw [e1, e2, ok_bind, ok_bind]
      cases s with
      | zero =>
        have hl : len = 1 := by simp at hm; omega
        have e0 : e = 0 := by omega
        subst e0
        obtain ⟨rfl, hg⟩ := Agree.all (fun x _ => by simp [Nat.mod_one]) A
        cases fuel with
        | zero => exact ⟨rfl, fun m' H' e => by cases e⟩
        | succ fuel =>
          unfold gsSimpleStagesV gsSimpleStagesH
          rw [if_neg (by simp; omega), if_neg (by simp; omega)]
          exact ⟨rfl, fun m' H' e => by cases e; exact ⟨hg, .inl (by simp)⟩⟩
      | succ s =>
        rw [show 2 ^ (s + 1) / 2 = 2 ^ s by rw [pow_succ]; omega]
        exact ih s H1' H2' (by omega) (by omega) A
    · rw [if_neg hm, if_neg hm]
      have hee : e = s + 1 := by
        by_contra hc
        have : 2 ^ e ≤ 2 ^ s := Nat.pow_le_pow_right (by omega) (by omega)
        omega
      subst hee
      obtain ⟨rfl, hg⟩ := Agree.all (fun x _ => Nat.mod_lt _ (by positivity)) hA
      exact ⟨rfl, fun m' H' e => by cases e; exact ⟨hg, .inr ⟨s, hs, rfl⟩⟩⟩

include hR hw hF hinj hsz hWs hW hL in
theorem gsStagesV_same : ∀ (fuel s : Nat), s + 1 ≤ L →
    Same (P w) pkt (blk mem) (R.gsStagesV rb w pkt mem fuel (2 ^ s)) (R.gsStagesH pkt mem fuel (2 ^ s)) := by
  intro fuel
  induction fuel with
  | zero => intro s _; exact Same.err
  | succ fuel ih =>
    intro s hs
    have h1 : 1 ≤ 2 ^ s := Nat.one_le_two_pow
    have hV : R.gsStagesV rb w pkt mem (fuel + 1) (2 ^ s) = fun H => R.gsStageV rb w pkt mem (2 ^ s) H >>= R.gsStagesV rb w pkt mem fuel (2 ^ s / 2) := by
      funext H; rw [gsStagesV, if_pos h1]
    have hH : R.gsStagesH pkt mem (fuel + 1) (2 ^ s) = fun H => R.gsStageH pkt mem (2 ^ s) H >>= R.gsStagesH pkt mem fuel (2 ^ s / 2) := by
      funext H; rw [gsStagesH, if_pos h1]
    rw [hV, hH]
    have hn : R.n = 2 * 2 ^ s * 2 ^ (L - s - 1) := by
      rw [hL, show (2 : Nat) * 2 ^ s = 2 ^ (s + 1) by ring, ← pow_add]; congr 1; omega
    have hq : 0 < 2 ^ (L - s - 1) := by positivity
    refine Same.seq ?_ ?_
    · refine Same.forN (fun j hj => ?_)
      obtain ⟨i1, i2⟩ := idx_gs hj hq hn
      rw [i1, rd_gt (by omega)]
      simp only [ok_bind]
      refine gsStepV_same hR hw hF hinj hsz (hW _ i2) (by omega) (fun t ht => ?_)
      rw [stride_eq (by omega) hn hq] at ht
      have : (t + 1) * (2 * 2 ^ s) ≤ 2 ^ (L - s - 1) * (2 * 2 ^ s) := Nat.mul_le_mul_right _ ht
      have e1 : (t + 1) * (2 * 2 ^ s) = t * (2 * 2 ^ s) + 2 * 2 ^ s := by ring
      have e2 : 2 ^ (L - s - 1) * (2 * 2 ^ s) = mem.size := by rw [hsz, hn]; ring
      omega
    · cases s with
      | zero =>
        cases fuel with
        | zero => exact Same.err
        | succ fuel =>
          intro H h
          simp only [Nat.pow_zero, gsStagesV, gsStagesH]
          exact ⟨rfl, fun H' e => by cases e; exact h⟩
      | succ s =>
        rw [show 2 ^ (s + 1) / 2 = 2 ^ s by rw [pow_succ]; omega]
        exact ih s (by omega)

end
end Radix2
end Quad
