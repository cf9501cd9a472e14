import Verif.Lemmas.SimdKern

/-!
The vectorised butterflies are equal to the scalar ones.
-/

namespace Quad

/-- Cooley-Tukey butterfly on one column -/
def ctφ (p r a b : Nat) : (Nat → Nat) → Nat → Nat :=
  updB2 a b (fun v => (v a + r * v b % p) % p) (fun v => (v a + (p - r * v b % p)) % p)

/-- Gentleman-Sande butterfly on one column -/
def gsφ (p r a b : Nat) : (Nat → Nat) → Nat → Nat :=
  updB2 a b (fun v => (v a + v b) % p) (fun v => r * ((v a + (p - v b)) % p) % p)

theorem updB2_swap {a b : Nat} (h : a ≠ b) (f g : (Nat → Nat) → Nat) : updB2 b a g f = updB2 a b f g := by
  funext v x
  unfold updB2
  by_cases h1 : x = a
  · subst h1; simp [h]
  · by_cases h2 : x = b
    · subst h2; simp [h1]
    · simp [h1, h2]

/-- operations on disjoint pairs of blocks commute -/
theorem updB2_comm {a b c d : Nat} {f g h k : (Nat → Nat) → Nat} (hac : a ≠ c) (had : a ≠ d) (hbc : b ≠ c) (hbd : b ≠ d)
    (hf : ∀ v u : Nat → Nat, v a = u a → v b = u b → f v = f u ∧ g v = g u)
    (hh : ∀ v u : Nat → Nat, v c = u c → v d = u d → h v = h u ∧ k v = k u) :
    updB2 a b f g ∘ updB2 c d h k = updB2 c d h k ∘ updB2 a b f g := by
  funext v x
  have h1 := hf (updB2 c d h k v) v (by simp [updB2, hac, had]) (by simp [updB2, hbc, hbd])
  have h2 := hh (updB2 a b f g v) v (by simp [updB2, hac.symm, hbc.symm]) (by simp [updB2, had.symm, hbd.symm])
  show updB2 a b f g (updB2 c d h k v) x = updB2 c d h k (updB2 a b f g v) x
  rw [updB2, h1.1, h1.2, updB2, updB2, h2.1, h2.2, updB2]
  by_cases e1 : x = a
  · subst e1; simp [hac, had]
  · by_cases e2 : x = b
    · subst e2; simp [hbc, hbd]
    · simp [e1, e2]

theorem ctφ_comm {p r r' a b c d : Nat} (hac : a ≠ c) (had : a ≠ d) (hbc : b ≠ c) (hbd : b ≠ d) :
    ctφ p r a b ∘ ctφ p r' c d = ctφ p r' c d ∘ ctφ p r a b :=
  updB2_comm hac had hbc hbd (fun v u h1 h2 => by simp [h1, h2]) (fun v u h1 h2 => by simp [h1, h2])

theorem ctφ_pres {p r a b : Nat} {bl : Nat → Prop} (hp : 0 < p) (ha : bl a) (hb : bl b) : Pres p bl (ctφ p r a b) :=
  updB2_pres ha hb (fun _ _ => Nat.mod_lt _ hp) (fun _ _ => Nat.mod_lt _ hp)

theorem gsφ_pres {p r a b : Nat} {bl : Nat → Prop} (hp : 0 < p) (ha : bl a) (hb : bl b) : Pres p bl (gsφ p r a b) :=
  updB2_pres ha hb (fun _ _ => Nat.mod_lt _ hp) (fun _ _ => Nat.mod_lt _ hp)

/-- blocks of an object -/
def blk (mem : Array Nat) (b : Nat) : Prop := ∃ i, i < mem.size ∧ b = gt mem i

theorem minus_one_mul {p y : Nat} (hy : y < p) : (p - 1) * y % p = (p - y) % p := by
  rcases Nat.eq_zero_or_pos y with rfl | h
  · simp
  · have : (p - 1) * y = p - y + p * (y - 1) := by
      obtain ⟨q, rfl⟩ : ∃ q, p = q + 1 := ⟨p - 1, by omega⟩
      obtain ⟨z, rfl⟩ : ∃ z, y = z + 1 := ⟨y - 1, by omega⟩
      simp only [Nat.add_sub_cancel]
      rw [Nat.add_sub_add_right]
      have : z ≤ q := by omega
      obtain ⟨t, rfl⟩ := Nat.exists_eq_add_of_le this
      rw [Nat.add_sub_cancel_left]; ring
    rw [this, Nat.add_mul_mod_self_left]

namespace Simd
variable {R w : Nat} (hR : RegSize R) (hw : Lane w)

include hw in
theorem get_case_spec {r q : Nat} (hr : r < q) : (get_case r q = .SIMPLE ∧ r = 1) ∨ (get_case r q = .NORMAL ∧ r < q - 1) ∨
    (get_case r q = .EXTREME ∧ r = q - 1) := by
  unfold get_case
  by_cases h1 : r = 1
  · left; exact ⟨if_pos h1, h1⟩
  · rw [if_neg h1]
    by_cases h2 : r < q - 1
    · right; left; exact ⟨if_pos h2, h2⟩
    · right; right; exact ⟨if_neg h2, by omega⟩

include hw in
theorem lane_ct {r t : Nat} {x y : Reg} (hr : r < P w) (hx : lane w x t < P w) (hy : lane w y t < P w) :
    lane w (butterfly_ct w (get_case r (P w)) (set_one w r) x y).1 t = (lane w x t + r * lane w y t % P w) % P w ∧
    lane w (butterfly_ct w (get_case r (P w)) (set_one w r) x y).2 t = (lane w x t + (P w - r * lane w y t % P w)) % P w := by
  have hp := P_pos hw
  have hf := hw.fit
  rcases get_case_spec hw hr with ⟨e, h⟩ | ⟨e, h⟩ | ⟨e, h⟩ <;> rw [e] <;> simp only [butterfly_ct]
  · rw [lane_mod_add hw hx hy, lane_mod_sub hw hx hy, h, Nat.one_mul, Nat.mod_eq_of_lt hy]
    exact ⟨rfl, rfl⟩
  · have hla : lane w (set_one w r) t = r := lane_set_one hw (by omega)
    have hz : lane w (mod_mul w (set_one w r) y) t = r * lane w y t % P w := by
      rw [lane_mod_mul hw (by rw [hla]; exact hr) hy (by rw [hla]; exact fun h' => by omega), hla]
    have hz' : lane w (mod_mul w (set_one w r) y) t < P w := by rw [hz]; exact Nat.mod_lt _ hp
    rw [lane_mod_add hw hx hz', lane_mod_sub hw hx hz', hz]
    exact ⟨rfl, rfl⟩
  · rw [lane_mod_add hw hx hy, lane_mod_sub hw hx hy, h, minus_one_mul hy]
    refine ⟨by rw [Nat.add_mod_mod], ?_⟩
    rcases Nat.eq_zero_or_pos (lane w y t) with h0 | h0
    · rw [h0, Nat.sub_zero, Nat.mod_self, Nat.sub_zero, Nat.add_mod_right, Nat.add_zero]
    · rw [Nat.mod_eq_of_lt (a := P w - lane w y t) (by omega)]
      congr 2; omega

include hw in
theorem lane_gs {r t : Nat} {x y : Reg} (hr : r < P w) (hx : lane w x t < P w) (hy : lane w y t < P w) :
    lane w (butterfly_gs w (get_case r (P w)) (set_one w r) x y).1 t = (lane w x t + lane w y t) % P w ∧
    lane w (butterfly_gs w (get_case r (P w)) (set_one w r) x y).2 t = r * ((lane w x t + (P w - lane w y t)) % P w) % P w := by
  have hp := P_pos hw
  have hf := hw.fit
  rcases get_case_spec hw hr with ⟨e, h⟩ | ⟨e, h⟩ | ⟨e, h⟩ <;> rw [e] <;> simp only [butterfly_gs]
  · rw [lane_mod_add hw hx hy, lane_mod_sub hw hx hy, h, Nat.one_mul, Nat.mod_mod]
    exact ⟨rfl, rfl⟩
  · have hla : lane w (set_one w r) t = r := lane_set_one hw (by omega)
    have hd : lane w (mod_sub w x y) t < P w := by rw [lane_mod_sub hw hx hy]; exact Nat.mod_lt _ hp
    rw [lane_mod_mul hw (by rw [hla]; exact hr) hd (by rw [hla]; exact fun h' => by omega), hla, lane_mod_sub hw hx hy,
      lane_mod_add hw hx hy]
    exact ⟨rfl, rfl⟩
  · rw [lane_mod_add hw hx hy, lane_mod_sub hw hy hx, h, minus_one_mul (Nat.mod_lt _ hp)]
    refine ⟨rfl, ?_⟩
    by_cases hle : lane w y t ≤ lane w x t
    · rw [show lane w x t + (P w - lane w y t) = lane w x t - lane w y t + P w by omega, Nat.add_mod_right,
        Nat.mod_eq_of_lt (a := lane w x t - lane w y t) (by omega)]
      congr 1; omega
    · rw [Nat.mod_eq_of_lt (a := lane w x t + (P w - lane w y t)) (by omega)]
      rw [show lane w y t + (P w - lane w x t) = (P w - (lane w x t + (P w - lane w y t))) + P w by omega, Nat.add_mod_right]

include hw in
theorem lane_gs_simple {r t : Nat} {x : Reg} (hr : r < P w) (hx : lane w x t < P w) :
    lane w (butterfly_simple_gs w (get_case r (P w)) (set_one w r) x) t = r * lane w x t % P w := by
  have hp := P_pos hw
  have hf := hw.fit
  rcases get_case_spec hw hr with ⟨e, h⟩ | ⟨e, h⟩ | ⟨e, h⟩ <;> rw [e] <;> simp only [butterfly_simple_gs]
  · rw [h, Nat.one_mul, Nat.mod_eq_of_lt hx]
  · have hla : lane w (set_one w r) t = r := lane_set_one hw (by omega)
    rw [lane_mod_mul hw (by rw [hla]; exact hr) hx (by rw [hla]; exact fun h' => by omega), hla]
  · rw [lane_mod_neg hw hx, h, minus_one_mul hx]

/-! ### one pair of blocks -/

variable {len : Nat} {bl : Nat → Prop}

include hR hw in
theorem ctVec_cols {r a b j : Nat} (hr : r < P w) (ha : bl a) (hb : bl b) (hab : a ≠ b) (hj : (j + 1) * ratio R w ≤ len) :
    Cols (P w) len bl (fun c => j * ratio R w ≤ c ∧ c < (j + 1) * ratio R w) (ctφ (P w) r a b) (ctVec R w (P w) r a b j) := by
  refine store2_cols ha hb hab hj (fun H hG => ?_)
  obtain ⟨x, e, hx, hl⟩ := loadReg_good hR hw hG ha hj
  obtain ⟨y, e', hy, hl'⟩ := loadReg_good hR hw hG hb hj
  refine ⟨_, _, by unfold ctVec; rw [e, ok_bind, e', ok_bind], fun t ht => ?_, fun t ht => ?_⟩
  · rw [(lane_ct hw hr (hl t ht) (hl' t ht)).1, hx t ht, hy t ht]
  · rw [(lane_ct hw hr (hl t ht) (hl' t ht)).2, hx t ht, hy t ht]

include hR hw in
theorem gsVec_cols {r a b j : Nat} (hr : r < P w) (ha : bl a) (hb : bl b) (hab : a ≠ b) (hj : (j + 1) * ratio R w ≤ len) :
    Cols (P w) len bl (fun c => j * ratio R w ≤ c ∧ c < (j + 1) * ratio R w) (gsφ (P w) r a b) (gsVec R w (P w) r a b j) := by
  refine store2_cols ha hb hab hj (fun H hG => ?_)
  obtain ⟨x, e, hx, hl⟩ := loadReg_good hR hw hG ha hj
  obtain ⟨y, e', hy, hl'⟩ := loadReg_good hR hw hG hb hj
  refine ⟨_, _, by unfold gsVec; rw [e, ok_bind, e', ok_bind], fun t ht => ?_, fun t ht => ?_⟩
  · rw [(lane_gs hw hr (hl t ht) (hl' t ht)).1, hx t ht, hy t ht]
  · rw [(lane_gs hw hr (hl t ht) (hl' t ht)).2, hx t ht, hy t ht]

/-- set the entries of four blocks -/
def updB4 (a b c d : Nat) (f g h k : (Nat → Nat) → Nat) : (Nat → Nat) → Nat → Nat :=
  fun v x => if x = a then f v else if x = b then g v else if x = c then h v else if x = d then k v else v x

variable {p : Nat}

/-- storing registers in four blocks -/
theorem store4_cols {a b c d j : Nat} {f g h k : (Nat → Nat) → Nat} {body : Heap → Res Heap} (ha : bl a) (hb : bl b) (hc : bl c) (hd : bl d)
    (hab : a ≠ b) (hac : a ≠ c) (had : a ≠ d) (hbc : b ≠ c) (hbd : b ≠ d) (hcd : c ≠ d)
    (hj : (j + 1) * ratio R w ≤ len)
    (hbody : ∀ H, Good p len bl H → ∃ x y z u, (body H = storeReg R w H a j x >>= fun H => storeReg R w H b j y >>= fun H =>
        storeReg R w H c j z >>= fun H => storeReg R w H d j u) ∧
      ∀ t, t < ratio R w → lane w x t = f (fun b => el H b (j * ratio R w + t)) ∧ lane w y t = g (fun b => el H b (j * ratio R w + t)) ∧
        lane w z t = h (fun b => el H b (j * ratio R w + t)) ∧ lane w u t = k (fun b => el H b (j * ratio R w + t))) :
    Cols p len bl (fun c => j * ratio R w ≤ c ∧ c < (j + 1) * ratio R w) (updB4 a b c d f g h k) body := by
  intro H hG
  have ex : (j + 1) * ratio R w = j * ratio R w + ratio R w := by ring
  obtain ⟨a1, a2, _⟩ := hG a ha
  obtain ⟨b1, b2, _⟩ := hG b hb
  obtain ⟨c1, c2, _⟩ := hG c hc
  obtain ⟨d1, d2, _⟩ := hG d hd
  obtain ⟨x, y, z, u, eb, hx⟩ := hbody H hG
  obtain ⟨H1, e1, s1, z1, g1⟩ := storeReg_el (R := R) (w := w) (x := x) (j := j) a1 (by omega)
  obtain ⟨H2, e2, s2, z2, g2⟩ := storeReg_el (R := R) (w := w) (H := H1) (d := b) (x := y) (j := j) (by omega) (by rw [z1]; omega)
  obtain ⟨H3, e3, s3, z3, g3⟩ := storeReg_el (R := R) (w := w) (H := H2) (d := c) (x := z) (j := j) (by omega) (by rw [z2, z1]; omega)
  obtain ⟨H4, e4, s4, z4, g4⟩ := storeReg_el (R := R) (w := w) (H := H3) (d := d) (x := u) (j := j) (by omega) (by rw [z3, z2, z1]; omega)
  refine ⟨H4, by rw [eb, e1, ok_bind, e2, ok_bind, e3, ok_bind, e4], by omega, fun b => by rw [z4, z3, z2, z1], fun b' i => ?_⟩
  rw [g4, g3, g2, g1]
  unfold updB4
  by_cases hk : j * ratio R w ≤ i ∧ i < (j + 1) * ratio R w
  · rw [if_pos hk]
    obtain ⟨x1, x2, x3, x4⟩ := hx (i - j * ratio R w) (by omega)
    rw [Nat.add_sub_cancel' hk.1] at x1 x2 x3 x4
    simp only [hk, and_true]
    by_cases h1 : b' = a
    · subst h1; simp [hab, hac, had, x1]
    · by_cases h2 : b' = b
      · subst h2; simp [hbc, hbd, h1, x2]
      · by_cases h3 : b' = c
        · subst h3; simp [hcd, h1, h2, x3]
        · simp [h1, h2, h3, x4]
  · simp only [hk, and_false, if_false]

/-- two layers of butterflies on four blocks -/
def ct2φ (p r1 r2 r3 a b c d : Nat) : (Nat → Nat) → Nat → Nat :=
  ctφ p r3 b d ∘ (ctφ p r2 a c ∘ (ctφ p r1 c d ∘ ctφ p r1 a b))

include hR hw in
theorem ct2Vec_cols {r1 r2 r3 a b c d j : Nat} (h1 : r1 < P w) (h2 : r2 < P w) (h3 : r3 < P w) (ha : bl a) (hb : bl b) (hc : bl c) (hd : bl d)
    (hab : a ≠ b) (hac : a ≠ c) (had : a ≠ d) (hbc : b ≠ c) (hbd : b ≠ d) (hcd : c ≠ d) (hj : (j + 1) * ratio R w ≤ len) :
    Cols (P w) len bl (fun c => j * ratio R w ≤ c ∧ c < (j + 1) * ratio R w) (ct2φ (P w) r1 r2 r3 a b c d)
      (ct2Vec R w (P w) r1 r2 r3 a b c d j) := by
  have hp := P_pos hw
  have e : ct2φ (P w) r1 r2 r3 a b c d = updB4 a b c d
      (fun v => ((v a + r1 * v b % P w) % P w + r2 * ((v c + r1 * v d % P w) % P w) % P w) % P w)
      (fun v => ((v a + (P w - r1 * v b % P w)) % P w + r3 * ((v c + (P w - r1 * v d % P w)) % P w) % P w) % P w)
      (fun v => ((v a + r1 * v b % P w) % P w + (P w - r2 * ((v c + r1 * v d % P w) % P w) % P w)) % P w)
      (fun v => ((v a + (P w - r1 * v b % P w)) % P w + (P w - r3 * ((v c + (P w - r1 * v d % P w)) % P w) % P w)) % P w) := by
    funext v x
    simp only [ct2φ, Function.comp_apply, ctφ, updB2, updB4]
    by_cases h1 : x = a
    · subst h1; simp [hab, hac, had, hac.symm, had.symm, hbc.symm, hcd, hcd.symm, hab.symm, hbd.symm]
    · by_cases h2 : x = b
      · subst h2; simp [h1, hac, had, hac.symm, had.symm, hbc.symm, hbd.symm, hbd, hbc, hcd.symm]
      · by_cases h3 : x = c
        · subst h3; simp [h1, h2, hac, had, had.symm, hcd, hab, hbd.symm]
        · by_cases h4 : x = d
          · subst h4; simp [h1, h2, h3, hbc, hbd, hab.symm, hac, had, hac.symm, hbc.symm]
          · simp [h1, h2, h3, h4]
  rw [e]
  refine store4_cols ha hb hc hd hab hac had hbc hbd hcd hj (fun H hG => ?_)
  obtain ⟨x, ex, hx, lx⟩ := loadReg_good hR hw hG ha hj
  obtain ⟨y, ey, hy, ly⟩ := loadReg_good hR hw hG hb hj
  obtain ⟨u, eu, hu, lu⟩ := loadReg_good hR hw hG hc hj
  obtain ⟨v, ev, hv, lv⟩ := loadReg_good hR hw hG hd hj
  refine ⟨_, _, _, _, by unfold ct2Vec; rw [ex, ok_bind, ey, ok_bind, eu, ok_bind, ev, ok_bind], fun t ht => ?_⟩
  obtain ⟨q1, q2⟩ := lane_ct hw h1 (lx t ht) (ly t ht)
  obtain ⟨q3, q4⟩ := lane_ct hw h1 (lu t ht) (lv t ht)
  have m := fun z => Nat.mod_lt z hp
  obtain ⟨q5, q6⟩ := lane_ct hw (t := t) h2 (by rw [q1]; exact m _) (by rw [q3]; exact m _)
  obtain ⟨q7, q8⟩ := lane_ct hw (t := t) h3 (by rw [q2]; exact m _) (by rw [q4]; exact m _)
  rw [q5, q6, q7, q8, q1, q2, q3, q4, hx t ht, hy t ht, hu t ht, hv t ht]
  exact ⟨rfl, rfl, rfl, rfl⟩

end Simd

/-! ### equal operations -/

/-- `f` and `g` are equal on good memory and keep it good -/
def Same (p len : Nat) (bl : Nat → Prop) (f g : Heap → Res Heap) : Prop :=
  ∀ H, Good p len bl H → f H = g H ∧ ∀ H', g H = .ok H' → Good p len bl H'

namespace Same
variable {p len : Nat} {bl : Nat → Prop} {f g f' g' : Heap → Res Heap}

theorem of_cols {S : Nat → Prop} [DecidablePred S] {φ : (Nat → Nat) → Nat → Nat} (hφ : Pres p bl φ)
    (hf : Cols p len bl S φ f) (hg : Cols p len bl S φ g) : Same p len bl f g := by
  intro H h
  refine ⟨Cols.unique hf hg h, fun H' e => ?_⟩
  obtain ⟨H1, e1, s, b, c⟩ := hg H h
  rw [e1] at e
  cases e
  exact Cols.good hφ h s b c

theorem seq (h1 : Same p len bl f g) (h2 : Same p len bl f' g') : Same p len bl (fun H => f H >>= f') (fun H => g H >>= g') := by
  intro H h
  obtain ⟨e, k⟩ := h1 H h
  dsimp only
  rw [e]
  cases hg : g H with
  | error x => exact ⟨rfl, fun H' e => by simp at e⟩
  | ok H1 =>
    obtain ⟨e', k'⟩ := h2 H1 (k H1 hg)
    exact ⟨e', k'⟩

theorem idle : Same p len bl (fun H => .ok H) (fun H => .ok H) := fun H h => ⟨rfl, fun H' e => by cases e; exact h⟩

theorem err {e : Err} : Same p len bl (fun _ => .error e) (fun _ => .error e) := fun H h => ⟨rfl, fun H' e => by cases e⟩

theorem forN {n : Nat} {f g : Nat → Heap → Res Heap} (h : ∀ i, i < n → Same p len bl (f i) (g i)) :
    Same p len bl (fun H => Quad.forN n H f) (fun H => Quad.forN n H g) := by
  induction n with
  | zero => exact idle
  | succ n ih => exact seq (ih (fun i hi => h i (by omega))) (h n (by omega))

end Same

/-! ### steps -/

namespace Radix2
open Simd

variable {rb w : Nat} (hR : RegSize rb) (hw : Lane w) {R : Radix2} (hF : R.F.ModP (P w)) {pkt : Nat} {mem : Array Nat} (hinj : InjPtr mem)

/-- the map of a step on one column -/
def stepφ (φ : Nat → Nat → (Nat → Nat) → Nat → Nat) (mem : Array Nat) (start m step : Nat) (t : Nat) : (Nat → Nat) → Nat → Nat :=
  φ (gt mem (start + t * step)) (gt mem (start + t * step + m))

theorem blk_mem {i : Nat} (h : i < mem.size) : blk mem (gt mem i) := ⟨i, h, rfl⟩

include hinj in
theorem ptr_ne {i j : Nat} (hi : i < mem.size) (hj : j < mem.size) (h : i ≠ j) : gt mem i ≠ gt mem j :=
  fun e => h (hinj i j hi hj e)

include hF hinj hw in
theorem ctStepSlow_cols {off r start m step : Nat} (ho : off ≤ pkt) (hr : r < P w) (hm : 0 < m)
    (hb : ∀ t, t < stride start R.n step → start + t * step + m < mem.size) :
    Cols (P w) pkt (blk mem) (fun c => off ≤ c ∧ c < pkt) (compN (stepφ (ctφ (P w) r) mem start m step) (stride start R.n step))
      (R.ctStepSlow pkt mem off r start m step) := by
  have hp := P_pos hw
  refine Cols.forN (fun t ht => ctφ_pres hp (blk_mem (by have := hb t ht; omega)) (blk_mem (hb t ht))) (fun t ht => ?_)
  have h1 := hb t ht
  have hne := ptr_ne hinj (show start + t * step < mem.size by omega) h1 (by omega)
  beta_reduce
  rw [rd_gt (show start + t * step < mem.size by omega)]
  simp only [ok_bind]
  rw [rd_gt h1]
  simp only [ok_bind]
  refine Cols.loopFrom (ctφ_pres hp (blk_mem (by omega)) (blk_mem h1)) ho (fun j _ hj => ?_)
  unfold stepφ ctφ
  rw [← updB2_swap hne]
  refine wr2_cols (blk_mem h1) (blk_mem (by omega)) hne.symm hj (fun H hG => ?_)
  have l1 := (hG _ (blk_mem h1)).2.2 j hj
  have l2 := (hG _ (blk_mem (show start + t * step < mem.size by omega))).2.2 j hj
  rw [rdEl_good hG (blk_mem h1) hj, ok_bind, rdEl_good hG (blk_mem (by omega)) hj, ok_bind]
  dsimp only
  rw [hF.mul _ _ hr l1, hF.sub _ _ l2 (Nat.mod_lt _ hp), hF.add _ _ l2 (Nat.mod_lt _ hp)]

include hF hinj hw in
theorem gsStepSlow_cols {off r start m step : Nat} (ho : off ≤ pkt) (hr : r < P w) (hm : 0 < m)
    (hb : ∀ t, t < stride start R.n step → start + t * step + m < mem.size) :
    Cols (P w) pkt (blk mem) (fun c => off ≤ c ∧ c < pkt) (compN (stepφ (gsφ (P w) r) mem start m step) (stride start R.n step))
      (R.gsStepSlow pkt mem off r start m step) := by
  have hp := P_pos hw
  refine Cols.forN (fun t ht => gsφ_pres hp (blk_mem (by have := hb t ht; omega)) (blk_mem (hb t ht))) (fun t ht => ?_)
  have h1 := hb t ht
  have hne := ptr_ne hinj (show start + t * step < mem.size by omega) h1 (by omega)
  beta_reduce
  rw [rd_gt (show start + t * step < mem.size by omega)]
  simp only [ok_bind]
  rw [rd_gt h1]
  simp only [ok_bind]
  refine Cols.loopFrom (gsφ_pres hp (blk_mem (by omega)) (blk_mem h1)) ho (fun j _ hj => ?_)
  unfold stepφ gsφ
  refine wr2_cols (blk_mem (by omega)) (blk_mem h1) hne hj (fun H hG => ?_)
  have l1 := (hG _ (blk_mem h1)).2.2 j hj
  have l2 := (hG _ (blk_mem (show start + t * step < mem.size by omega))).2.2 j hj
  rw [rdEl_good hG (blk_mem (by omega)) hj, ok_bind, rdEl_good hG (blk_mem h1) hj, ok_bind]
  dsimp only
  rw [hF.sub _ _ l2 l1, hF.add _ _ l2 l1, hF.mul _ _ hr (Nat.mod_lt _ hp)]

theorem forStep_zero (n : Nat) (body : Nat → Heap → Res Heap) (H : Heap) : forStep 0 n 1 H body = forN n H body := by
  unfold forStep
  have : stride 0 n 1 = n := by unfold stride; omega
  rw [this]
  simp

theorem ctStepH_slow {r start m step : Nat} : R.ctStepH pkt mem r start m step = R.ctStepSlow pkt mem 0 r start m step := by
  unfold ctStepH ctStepSlow ctPairH
  simp only [forStep_zero]

/-- the loop over `i` of `butterfly_gs_step_slow` -/
theorem gsStepH_slow {r start m step : Nat} : (fun H => forStep start R.n step H (fun i H => R.gsPairH pkt mem r m i H)) =
    R.gsStepSlow pkt mem 0 r start m step := by
  unfold gsStepSlow gsPairH
  simp only [forStep_zero]

/-- a vectorised part, then the rest -/
theorem tail_cols {φ : (Nat → Nat) → Nat → Nat} {f g : Heap → Res Heap} {p : Nat} {bl : Nat → Prop} (hr : 0 < ratio rb w) (hφ : Pres p bl φ)
    (hf : Cols p pkt bl (fun c => c < pkt / ratio rb w * ratio rb w) φ f)
    (hg : Cols p pkt bl (fun c => pkt / ratio rb w * ratio rb w ≤ c ∧ c < pkt) φ g) :
    Cols p pkt bl (fun c => 0 ≤ c ∧ c < pkt) φ (fun H => f H >>= fun H =>
      if pkt - pkt / ratio rb w * ratio rb w > 0 then g H else pure H) := by
  have hle : pkt / ratio rb w * ratio rb w ≤ pkt := Nat.div_mul_le_self _ _
  by_cases h : pkt - pkt / ratio rb w * ratio rb w > 0
  · simp only [if_pos h]
    exact Cols.union hφ (fun c => by omega) (fun c hc => by omega) hf hg
  · simp only [if_neg h]
    refine Cols.congr (fun c => by omega) hf (fun H _ => ?_)
    cases f H <;> rfl

theorem turn_le {j pkt r : Nat} (h : j < pkt / r) : (j + 1) * r ≤ pkt :=
  calc (j + 1) * r ≤ pkt / r * r := Nat.mul_le_mul_right _ (by omega)
    _ ≤ pkt := Nat.div_mul_le_self _ _

include hR hw hF hinj in
theorem ctStepV_same (hsz : mem.size = R.n) {r start m step : Nat} (hr : r < P w) (hm : 0 < m)
    (hb : ∀ t, t < stride start R.n step → start + t * step + m < mem.size) :
    Same (P w) pkt (blk mem) (R.ctStepV rb w pkt mem r start m step) (R.ctStepH pkt mem r start m step) := by
  have hp := P_pos hw
  have hr0 := (ratio_mul hR hw).2
  have hle : pkt / ratio rb w * ratio rb w ≤ pkt := Nat.div_mul_le_self _ _
  have hφ : Pres (P w) (blk mem) (compN (stepφ (ctφ (P w) r) mem start m step) (stride start R.n step)) :=
    Pres.compN (fun t ht => ctφ_pres hp (blk_mem (by have := hb t ht; omega)) (blk_mem (hb t ht)))
  refine Same.of_cols hφ ?_ (by rw [ctStepH_slow]; exact ctStepSlow_cols hw hF hinj (Nat.zero_le _) hr hm hb)
  refine tail_cols hr0 hφ ?_ (ctStepSlow_cols hw hF hinj hle hr hm hb)
  unfold Simd.butterfly_ct_step forStep
  rw [hsz]
  refine Cols.forN (fun t ht => ctφ_pres hp (blk_mem (by have := hb t ht; omega)) (blk_mem (hb t ht))) (fun t ht => ?_)
  have h1 := hb t ht
  have hne := ptr_ne hinj (show start + t * step < mem.size by omega) h1 (by omega)
  beta_reduce
  rw [rd_gt (show start + t * step < mem.size by omega)]
  simp only [ok_bind]
  rw [rd_gt h1]
  simp only [ok_bind, unrolled_eq (show 0 < 2 by omega), hF.card]
  exact Cols.loop (ctφ_pres hp (blk_mem (by omega)) (blk_mem h1)) (fun j hj =>
    ctVec_cols hR hw hr (blk_mem (by omega)) (blk_mem h1) hne (turn_le hj))

include hR hw hF hinj in
theorem gsStepV_same (hsz : mem.size = R.n) {r start m : Nat} (hr : r < P w) (hm : 0 < m)
    (hb : ∀ t, t < stride start R.n (2 * m) → start + t * (2 * m) + m < mem.size) :
    Same (P w) pkt (blk mem) (R.gsStepV rb w pkt mem r start m (2 * m))
      (fun H => forStep start R.n (2 * m) H (fun i H => R.gsPairH pkt mem r m i H)) := by
  have hp := P_pos hw
  have hr0 := (ratio_mul hR hw).2
  have hle : pkt / ratio rb w * ratio rb w ≤ pkt := Nat.div_mul_le_self _ _
  have hφ : Pres (P w) (blk mem) (compN (stepφ (gsφ (P w) r) mem start m (2 * m)) (stride start R.n (2 * m))) :=
    Pres.compN (fun t ht => gsφ_pres hp (blk_mem (by have := hb t ht; omega)) (blk_mem (hb t ht)))
  refine Same.of_cols hφ ?_ (by rw [gsStepH_slow]; exact gsStepSlow_cols hw hF hinj (Nat.zero_le _) hr hm hb)
  refine tail_cols hr0 hφ ?_ (gsStepSlow_cols hw hF hinj hle hr hm hb)
  unfold Simd.butterfly_gs_step
  by_cases h0 : pkt / ratio rb w = 0
  · simp only [h0, if_true]
    intro H _
    exact ⟨H, rfl, rfl, fun _ => rfl, fun b c => by simp⟩
  simp only [if_neg h0]
  unfold forStep
  rw [hsz]
  refine Cols.forN (fun t ht => gsφ_pres hp (blk_mem (by have := hb t ht; omega)) (blk_mem (hb t ht))) (fun t ht => ?_)
  have h1 := hb t ht
  have hne := ptr_ne hinj (show start + t * (2 * m) < mem.size by omega) h1 (by omega)
  beta_reduce
  rw [rd_gt (show start + t * (2 * m) < mem.size by omega)]
  simp only [ok_bind]
  rw [rd_gt h1]
  simp only [ok_bind, hF.card]
  exact Cols.loop (gsφ_pres hp (blk_mem (by omega)) (blk_mem h1)) (fun j hj =>
    gsVec_cols hR hw hr (blk_mem (by omega)) (blk_mem h1) hne (turn_le hj))

end Radix2
end Quad
