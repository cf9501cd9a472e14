import Verif.Lemmas.SimdBuf

/-!
The vectorised buffer operations are equal to the scalar ones.
-/

namespace Quad

/-- the operations of `F` are those of the integers modulo `p`, on values below `p` -/
structure GF.ModP (F : GF) (p : Nat) : Prop where
  card : F.card = p
  cardM1 : F.cardM1 = p - 1
  add : ∀ x y, x < p → y < p → F.add x y = (x + y) % p
  sub : ∀ x y, x < p → y < p → F.sub x y = (x + (p - y)) % p
  mul : ∀ x y, x < p → y < p → F.mul x y = x * y % p

namespace Simd

variable {R w : Nat} (hR : RegSize R) (hw : Lane w) {F : GF} (hF : F.ModP (P w)) {len : Nat} {bl : Nat → Prop}

/-- whole registers, then the rest one by one -/
theorem split_cols {φ : (Nat → Nat) → Nat → Nat} {p : Nat} {vec tail : Nat → Heap → Res Heap} (hr : 0 < ratio R w) (hφ : Pres p bl φ)
    (hv : ∀ j, (j + 1) * ratio R w ≤ len → Cols p len bl (fun c => j * ratio R w ≤ c ∧ c < (j + 1) * ratio R w) φ (vec j))
    (ht : ∀ j, j < len → Cols p len bl (fun c => c = j) φ (tail j)) :
    Cols p len bl (fun c => c < len) φ (fun H => forN (len / ratio R w) H vec >>= fun H =>
      forStep (len / ratio R w * ratio R w) len 1 H tail) := by
  have hle : len / ratio R w * ratio R w ≤ len := Nat.div_mul_le_self _ _
  refine Cols.union hφ (S := fun c => c < len / ratio R w * ratio R w)
    (T := fun c => len / ratio R w * ratio R w ≤ c ∧ c < len) (fun c => by omega) (fun c hc => by omega)
    (Cols.loop hφ (fun j hj => hv j ?_)) (Cols.loopFrom hφ hle (fun j _ h2 => ht j h2))
  calc (j + 1) * ratio R w ≤ len / ratio R w * ratio R w := Nat.mul_le_mul_right _ (by omega)
    _ ≤ len := hle

include hw in
theorem P_pos : 0 < P w := by have := hw.P_pos; omega

include hR hw hF in
theorem mul_coef_to_buf_eq {a src dest : Nat} {H : Heap} (ha : a < P w) (ha' : a ≠ P w - 1) (hs : bl src) (hd : bl dest)
    (h : Good (P w) len bl H) : mul_coef_to_buf R w F.card a src dest len H = BufOps.mul_coef_to_buf F a src dest len H := by
  have hp := P_pos hw
  have hf := hw.fit
  have hφ : Pres (P w) bl (updB dest (fun v => a * v src % P w)) := updB_pres hd (fun v _ => Nat.mod_lt _ hp)
  refine Cols.unique (S := fun c => c < len) (φ := updB dest (fun v => a * v src % P w)) (bl := bl) ?_ ?_ h
  · unfold mul_coef_to_buf
    simp only [unrolled_eq (show 0 < 4 by omega)]
    refine split_cols (ratio_mul hR hw).2 hφ (fun j hj => store_cols hd hj (fun H hG => ?_))
      (fun j hj => wr_cols hd hj (fun H hG => ?_))
    · obtain ⟨x, e, hx, hl⟩ := loadReg_good hR hw hG hs hj
      refine ⟨_, by rw [e, ok_bind], fun t ht => ?_⟩
      have hla : lane w (set_one w a) t = a := lane_set_one hw (by omega)
      rw [lane_mod_mul hw (by rw [hla]; exact ha) (hl t ht) (by rw [hla]; exact fun h => ha' h.1), hla, hx t ht]
    · rw [rdEl_good hG hs hj, ok_bind, hF.card]
      rw [Nat.mod_eq_of_lt (a := _ % P w) (by have := Nat.mod_lt (a * el H src j) hp; omega)]
  · unfold BufOps.mul_coef_to_buf
    refine Cols.loop1 hφ (fun j hj => wr_cols hd hj (fun H hG => ?_))
    rw [rdEl_good hG hs hj, ok_bind, hF.mul _ _ ha ((hG src hs).2.2 j hj)]

include hR hw hF in
theorem add_two_bufs_eq {src dest : Nat} {H : Heap} (hs : bl src) (hd : bl dest)
    (h : Good (P w) len bl H) : add_two_bufs R w F.card src dest len H = BufOps.add_two_bufs F src dest len H := by
  have hp := P_pos hw
  have hf := hw.fit
  have hφ : Pres (P w) bl (updB dest (fun v => (v src + v dest) % P w)) := updB_pres hd (fun v _ => Nat.mod_lt _ hp)
  refine Cols.unique (S := fun c => c < len) (φ := updB dest (fun v => (v src + v dest) % P w)) (bl := bl) ?_ ?_ h
  · unfold add_two_bufs
    refine split_cols (ratio_mul hR hw).2 hφ (fun j hj => store_cols hd hj (fun H hG => ?_))
      (fun j hj => wr_cols hd hj (fun H hG => ?_))
    · obtain ⟨x, e, hx, hl⟩ := loadReg_good hR hw hG hs hj
      obtain ⟨y, e', hy, hl'⟩ := loadReg_good hR hw hG hd hj
      refine ⟨_, by rw [e, ok_bind, e', ok_bind], fun t ht => ?_⟩
      rw [lane_mod_add hw (hl t ht) (hl' t ht), hx t ht, hy t ht]
    · have h1 := (hG src hs).2.2 j hj
      have h2 := (hG dest hd).2.2 j hj
      rw [rdEl_good hG hs hj, ok_bind, rdEl_good hG hd hj, ok_bind, hF.card]
      dsimp only
      rw [Nat.mod_eq_of_lt (a := el H src j + el H dest j) (by omega)]
      congr 1
      split
      · rw [Nat.mod_eq_sub_mod (by omega), Nat.mod_eq_of_lt (by omega)]
      · rw [Nat.mod_eq_of_lt (by omega)]
  · unfold BufOps.add_two_bufs
    refine Cols.loop1 hφ (fun j hj => wr_cols hd hj (fun H hG => ?_))
    rw [rdEl_good hG hs hj, ok_bind, rdEl_good hG hd hj, ok_bind, hF.add _ _ ((hG src hs).2.2 j hj) ((hG dest hd).2.2 j hj)]

include hR hw hF in
theorem sub_two_bufs_eq {a b res : Nat} {H : Heap} (ha : bl a) (hb : bl b) (hd : bl res)
    (h : Good (P w) len bl H) : sub_two_bufs R w F.card a b res len H = BufOps.sub_two_bufs F a b res len H := by
  have hp := P_pos hw
  have hf := hw.fit
  have hφ : Pres (P w) bl (updB res (fun v => (v a + (P w - v b)) % P w)) := updB_pres hd (fun v _ => Nat.mod_lt _ hp)
  refine Cols.unique (S := fun c => c < len) (φ := updB res (fun v => (v a + (P w - v b)) % P w)) (bl := bl) ?_ ?_ h
  · unfold sub_two_bufs
    refine split_cols (ratio_mul hR hw).2 hφ (fun j hj => store_cols hd hj (fun H hG => ?_))
      (fun j hj => wr_cols hd hj (fun H hG => ?_))
    · obtain ⟨x, e, hx, hl⟩ := loadReg_good hR hw hG ha hj
      obtain ⟨y, e', hy, hl'⟩ := loadReg_good hR hw hG hb hj
      refine ⟨_, by rw [e, ok_bind, e', ok_bind], fun t ht => ?_⟩
      rw [lane_mod_sub hw (hl t ht) (hl' t ht), hx t ht, hy t ht]
    · have h1 := (hG a ha).2.2 j hj
      have h2 := (hG b hb).2.2 j hj
      rw [rdEl_good hG ha hj, ok_bind, rdEl_good hG hb hj, ok_bind, hF.card]
      dsimp only
      congr 1
      split
      · rw [show el H a j + (P w - el H b j) = el H a j - el H b j + P w by omega, Nat.add_mod_right,
          Nat.mod_eq_of_lt (by omega)]
      · rw [show P w + (256 ^ w - (el H b j - el H a j)) = el H a j + (P w - el H b j) + 256 ^ w by omega, Nat.add_mod_right,
          Nat.mod_eq_of_lt (by omega), Nat.mod_eq_of_lt (by omega)]
  · unfold BufOps.sub_two_bufs
    refine Cols.loop1 hφ (fun j hj => wr_cols hd hj (fun H hG => ?_))
    rw [rdEl_good hG ha hj, ok_bind, rdEl_good hG hb hj, ok_bind, hF.sub _ _ ((hG a ha).2.2 j hj) ((hG b hb).2.2 j hj)]

include hR hw hF in
/-- `hadamard_mul(n, x, y)` calls `mul_two_bufs(y, x, n)` (gf_ring.cpp:102-118) -/
theorem mul_two_bufs_eq {x y : Nat} {H : Heap} (hs : bl y) (hd : bl x)
    (h : Good (P w) len bl H) : mul_two_bufs R w F.card y x len H = BufOps.hadamard_mul F len x y H := by
  have hp := P_pos hw
  have hf := hw.fit
  have hφ : Pres (P w) bl (updB x (fun v => (v x * v y) % P w)) := updB_pres hd (fun v _ => Nat.mod_lt _ hp)
  refine Cols.unique (S := fun c => c < len) (φ := updB x (fun v => (v x * v y) % P w)) (bl := bl) ?_ ?_ h
  · unfold mul_two_bufs
    refine split_cols (ratio_mul hR hw).2 hφ (fun j hj => store_cols hd hj (fun H hG => ?_))
      (fun j hj => wr_cols hd hj (fun H hG => ?_))
    · obtain ⟨u, e, hx, hl⟩ := loadReg_good hR hw hG hs hj
      obtain ⟨v, e', hy, hl'⟩ := loadReg_good hR hw hG hd hj
      refine ⟨_, by rw [e, ok_bind, e', ok_bind], fun t ht => ?_⟩
      rw [lane_mod_mul_safe hw _ (hl t ht) (hl' t ht), hx t ht, hy t ht, Nat.mul_comm]
      rw [← (ratio_mul hR hw).1]
      exact Nat.mul_le_mul_right _ ht
    · have h1 := (hG y hs).2.2 j hj
      have h2 := (hG x hd).2.2 j hj
      rw [rdEl_good hG hs hj, ok_bind, rdEl_good hG hd hj, ok_bind, hF.card, Nat.mul_comm (el H y j)]
      rw [Nat.mod_eq_of_lt (a := _ % P w) (by have := Nat.mod_lt (el H x j * el H y j) hp; omega)]
  · unfold BufOps.hadamard_mul
    refine Cols.loop1 hφ (fun j hj => wr_cols hd hj (fun H hG => ?_))
    rw [rdEl_good hG hd hj, ok_bind, rdEl_good hG hs hj, ok_bind, hF.mul _ _ ((hG x hd).2.2 j hj) ((hG y hs).2.2 j hj)]

include hR hw hF in
theorem neg_eq {x : Nat} {H : Heap} (hd : bl x) (h : Good (P w) len bl H) :
    neg R w F.card len x H = BufOps.negBuf F len x H := by
  have hp := P_pos hw
  have hf := hw.fit
  have hφ : Pres (P w) bl (updB x (fun v => (P w - v x) % P w)) := updB_pres hd (fun v _ => Nat.mod_lt _ hp)
  refine Cols.unique (S := fun c => c < len) (φ := updB x (fun v => (P w - v x) % P w)) (bl := bl) ?_ ?_ h
  · unfold neg
    refine split_cols (ratio_mul hR hw).2 hφ (fun j hj => store_cols hd hj (fun H hG => ?_))
      (fun j hj => wr_cols hd hj (fun H hG => ?_))
    · obtain ⟨u, e, hx, hl⟩ := loadReg_good hR hw hG hd hj
      refine ⟨_, by rw [e, ok_bind], fun t ht => ?_⟩
      rw [lane_mod_neg hw (hl t ht), hx t ht]
    · have h2 := (hG x hd).2.2 j hj
      rw [rdEl_good hG hd hj, ok_bind, hF.card]
      dsimp only
      by_cases h0 : el H x j = 0
      · rw [if_neg (by simpa using h0), h0, Nat.sub_zero, Nat.mod_self]
        obtain ⟨hs, hz, _⟩ := hG x hd
        rw [Heap.wrEl_ok hs (by omega)]
        show Except.ok H = _
        congr 1
        refine gt_ext (by simp) (fun b hb => ?_)
        rw [gt_set hs]
        split
        · next hbx =>
            subst hbx
            refine gt_ext (by simp) (fun c hc => ?_)
            rw [gt_set (by omega)]
            split
            · next hc => subst hc; exact h0
            · rfl
        · rfl
      · rw [if_pos h0, show P w + (256 ^ w - el H x j) = P w - el H x j + 256 ^ w by omega, Nat.add_mod_right,
          Nat.mod_eq_of_lt (by omega), Nat.mod_eq_of_lt (by omega)]
  · unfold BufOps.negBuf
    refine Cols.loop1 hφ (fun j hj => wr_cols hd hj (fun H hG => ?_))
    rw [rdEl_good hG hd hj, ok_bind, hF.sub _ _ hp ((hG x hd).2.2 j hj), Nat.zero_add]

end Simd
end Quad
