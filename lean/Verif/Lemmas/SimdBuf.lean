import Verif.Lemmas.Simd
import Verif.Lemmas.Cols

/-!
The vectorised kernels act on each element like the scalar ones.
-/

namespace Quad

/-- set the entry of block `d` -/
def updB (d : Nat) (g : (Nat → Nat) → Nat) : (Nat → Nat) → Nat → Nat := fun v b => if b = d then g v else v b

/-- set the entries of blocks `d` and `e` -/
def updB2 (d e : Nat) (g h : (Nat → Nat) → Nat) : (Nat → Nat) → Nat → Nat :=
  fun v b => if b = d then g v else if b = e then h v else v b

section
variable {p len : Nat} {bl : Nat → Prop}

theorem updB_pres {d : Nat} {g : (Nat → Nat) → Nat} (hd : bl d) (hg : ∀ v, (∀ b, bl b → v b < p) → g v < p) :
    Pres p bl (updB d g) :=
  ⟨fun v hv b hb => by unfold updB; split; exacts [hg v hv, hv b hb],
    fun v b hb => by unfold updB; rw [if_neg (fun (e : b = d) => hb (by rw [e]; exact hd))]⟩

theorem updB2_pres {d e : Nat} {g h : (Nat → Nat) → Nat} (hd : bl d) (he : bl e) (hg : ∀ v, (∀ b, bl b → v b < p) → g v < p)
    (hh : ∀ v, (∀ b, bl b → v b < p) → h v < p) : Pres p bl (updB2 d e g h) :=
  ⟨fun v hv b hb => by unfold updB2; split; exact hg v hv; split; exacts [hh v hv, hv b hb],
    fun v b hb => by unfold updB2; rw [if_neg (fun (x : b = d) => hb (by rw [x]; exact hd)), if_neg (fun (x : b = e) => hb (by rw [x]; exact he))]⟩

theorem wrEl_el {H : Heap} {d j x : Nat} (hd : d < H.size) (hj : j < (gt H d).size) :
    ∃ H', Heap.wrEl H d j x = .ok H' ∧ H'.size = H.size ∧ (∀ b, (gt H' b).size = (gt H b).size) ∧
      ∀ b c, el H' b c = if b = d ∧ c = j then x else el H b c := by
  refine ⟨_, Heap.wrEl_ok hd hj, by simp, fun b => ?_, fun b c => ?_⟩
  · rw [gt_set hd]
    split
    · next h => subst h; simp
    · rfl
  · unfold el
    rw [gt_set hd]
    by_cases hb : b = d
    · subst hb; rw [if_pos rfl, gt_set hj]
      simp
    · rw [if_neg hb, if_neg (fun h => hb h.1)]

/-- writing one entry -/
theorem wr_cols {d j : Nat} {g : (Nat → Nat) → Nat} {body : Heap → Res Heap} (hd : bl d) (hj : j < len)
    (hb : ∀ H, Good p len bl H → body H = Heap.wrEl H d j (g (fun b => el H b j))) :
    Cols p len bl (fun c => c = j) (updB d g) body := by
  intro H h
  obtain ⟨h1, h2, h3⟩ := h d hd
  obtain ⟨H', e, s, z, c⟩ := wrEl_el (j := j) (x := g (fun b => el H b j)) h1 (by omega)
  refine ⟨H', by rw [hb H h, e], s, z, fun b k => ?_⟩
  rw [c]
  unfold updB
  by_cases hk : k = j
  · subst hk; simp
  · rw [if_neg (fun h => hk h.2), if_neg hk]

/-- writing one entry of two blocks -/
theorem wr2_cols {d e j : Nat} {g h : (Nat → Nat) → Nat} {body : Heap → Res Heap} (hd : bl d) (he : bl e) (hde : d ≠ e) (hj : j < len)
    (hb : ∀ H, Good p len bl H → body H = Heap.wrEl H d j (g (fun b => el H b j)) >>= fun H' =>
      Heap.wrEl H' e j (h (fun b => el H b j))) :
    Cols p len bl (fun c => c = j) (updB2 d e g h) body := by
  intro H hG
  obtain ⟨h1, h2, h3⟩ := hG d hd
  obtain ⟨h1', h2', h3'⟩ := hG e he
  obtain ⟨H', e1, s, z, c⟩ := wrEl_el (j := j) (x := g (fun b => el H b j)) h1 (by omega)
  obtain ⟨H'', e2, s', z', c'⟩ := wrEl_el (H := H') (d := e) (j := j) (x := h (fun b => el H b j)) (by omega) (by rw [z]; omega)
  refine ⟨H'', by rw [hb H hG, e1, ok_bind, e2], s'.trans s, fun b => (z' b).trans (z b), fun b k => ?_⟩
  rw [c', c]
  unfold updB2
  by_cases hk : k = j
  · subst hk
    by_cases hbd : b = d
    · subst hbd; simp [hde]
    · simp [hbd]
  · simp [hk]

theorem rdEl_good {H : Heap} (h : Good p len bl H) {b j : Nat} (hb : bl b) (hj : j < len) :
    Heap.rdEl H b j = .ok (el H b j) := by
  obtain ⟨h1, h2, _⟩ := h b hb
  exact Heap.rdEl_ok h1 (by omega)

end

namespace Simd

/-- register sizes -/
def RegSize (R : Nat) : Prop := R = 16 ∨ R = 32

variable {R w : Nat} (hR : RegSize R) (hw : Lane w)

include hR hw in
theorem ratio_mul : ratio R w * w = R ∧ 0 < ratio R w := by
  rcases hR with h | h <;> rcases hw with h' | h' <;> subst h <;> subst h' <;> decide

theorem storeReg_el {H : Heap} {d j : Nat} {x : Reg} (hd : d < H.size) (hj : (j + 1) * ratio R w ≤ (gt H d).size) :
    ∃ H', storeReg R w H d j x = .ok H' ∧ H'.size = H.size ∧ (∀ b, (gt H' b).size = (gt H b).size) ∧
      ∀ b c, el H' b c = if b = d ∧ j * ratio R w ≤ c ∧ c < (j + 1) * ratio R w then lane w x (c - j * ratio R w) else el H b c := by
  have e1 : (j + 1) * ratio R w = j * ratio R w + ratio R w := by ring
  obtain ⟨H', e, s, z, c⟩ := forN_inv (n := ratio R w) (s := H)
    (f := fun t H => Heap.wrEl H d (j * ratio R w + t) (lane w x t))
    (I := fun k H' => H'.size = H.size ∧ (∀ b, (gt H' b).size = (gt H b).size) ∧
      ∀ b c, el H' b c = if b = d ∧ j * ratio R w ≤ c ∧ c < j * ratio R w + k then lane w x (c - j * ratio R w) else el H b c)
    ⟨rfl, fun _ => rfl, fun b c => by rw [if_neg (by omega)]⟩ (by
      rintro k H1 hk ⟨h1, h2, h3⟩
      obtain ⟨H2, e2, s2, z2, c2⟩ := wrEl_el (H := H1) (d := d) (j := j * ratio R w + k) (x := lane w x k) (by omega) (by rw [h2]; omega)
      refine ⟨H2, e2, s2.trans h1, fun b => (z2 b).trans (h2 b), fun b c => ?_⟩
      rw [c2, h3]
      by_cases hb : b = d
      · by_cases hc : c = j * ratio R w + k
        · subst hc; rw [if_pos ⟨hb, rfl⟩, if_pos ⟨hb, by omega, by omega⟩, Nat.add_sub_cancel_left]
        · rw [if_neg (fun h => hc h.2)]
          by_cases hc' : j * ratio R w ≤ c ∧ c < j * ratio R w + k
          · rw [if_pos ⟨hb, hc'⟩, if_pos ⟨hb, by omega, by omega⟩]
          · rw [if_neg (fun h => hc' h.2), if_neg (fun h => hc' ⟨h.2.1, by omega⟩)]
      · rw [if_neg (fun h => hb h.1), if_neg (fun h => hb h.1), if_neg (fun h => hb h.1)])
  exact ⟨H', e, s, z, fun b k => by rw [c, e1]⟩

include hR hw in
theorem loadReg_el {H : Heap} {s j : Nat} (hs : s < H.size) (hj : (j + 1) * ratio R w ≤ (gt H s).size)
    (hlt : ∀ c, c < (gt H s).size → el H s c < P w) :
    ∃ x, loadReg R w H s j = .ok x ∧ ∀ t, t < ratio R w → lane w x t = el H s (j * ratio R w + t) := by
  have e1 : (j + 1) * ratio R w = j * ratio R w + ratio R w := by ring
  obtain ⟨hrw, hr0⟩ := ratio_mul hR hw
  have hf := hw.fit
  refine ⟨_, by unfold loadReg; rw [rd_gt hs, ok_bind, if_pos hj], fun t ht => ?_⟩
  have hlt' := hlt (j * ratio R w + t) (by omega)
  rw [← lane_ofLanes (w := w) (f := fun t => el H s (j * ratio R w + t)) (i := t) hw.pos (show el H s (j * ratio R w + t) < 256 ^ w by omega)]
  refine lane_congr hw (fun k hk => ?_)
  have : t * w + k < R := by
    have : (t + 1) * w ≤ ratio R w * w := Nat.mul_le_mul_right _ (by omega)
    have e : (t + 1) * w = t * w + w := by ring
    omega
  rw [if_pos this]
  rfl

variable {len : Nat} {bl : Nat → Prop}

include hR hw in
theorem loadReg_good {H : Heap} (h : Good (P w) len bl H) {s j : Nat} (hs : bl s) (hj : (j + 1) * ratio R w ≤ len) :
    ∃ x, loadReg R w H s j = .ok x ∧ (∀ t, t < ratio R w → lane w x t = el H s (j * ratio R w + t)) ∧
      ∀ t, t < ratio R w → lane w x t < P w := by
  obtain ⟨h1, h2, h3⟩ := h s hs
  obtain ⟨x, e, hx⟩ := loadReg_el hR hw (j := j) h1 (by omega) (fun c hc => h3 c (by omega))
  refine ⟨x, e, hx, fun t ht => ?_⟩
  rw [hx t ht]
  exact h3 _ (by have e1 : (j + 1) * ratio R w = j * ratio R w + ratio R w := by ring
                 omega)

variable {p : Nat}

/-- storing one register -/
theorem store_cols {d j : Nat} {g : (Nat → Nat) → Nat} {body : Heap → Res Heap} (hd : bl d) (hj : (j + 1) * ratio R w ≤ len)
    (hb : ∀ H, Good p len bl H → ∃ x, body H = storeReg R w H d j x ∧
      ∀ t, t < ratio R w → lane w x t = g (fun b => el H b (j * ratio R w + t))) :
    Cols p len bl (fun c => j * ratio R w ≤ c ∧ c < (j + 1) * ratio R w) (updB d g) body := by
  intro H h
  obtain ⟨h1, h2, h3⟩ := h d hd
  obtain ⟨x, eb, hx⟩ := hb H h
  obtain ⟨H', e, s, z, c⟩ := storeReg_el (R := R) (w := w) (x := x) (j := j) h1 (by omega)
  refine ⟨H', by rw [eb, e], s, z, fun b k => ?_⟩
  rw [c]
  unfold updB
  by_cases hk : j * ratio R w ≤ k ∧ k < (j + 1) * ratio R w
  · rw [if_pos hk]
    by_cases hb : b = d
    · rw [if_pos ⟨hb, hk⟩, if_pos hb, hx _ (by have e1 : (j + 1) * ratio R w = j * ratio R w + ratio R w := by ring
                                               omega), Nat.add_sub_cancel' hk.1]
    · rw [if_neg (fun h => hb h.1), if_neg hb]
  · rw [if_neg (fun h => hk h.2), if_neg hk]

/-- storing registers in two blocks -/
theorem store2_cols {d e j : Nat} {g h : (Nat → Nat) → Nat} {body : Heap → Res Heap} (hd : bl d) (he : bl e) (hde : d ≠ e)
    (hj : (j + 1) * ratio R w ≤ len)
    (hb : ∀ H, Good p len bl H → ∃ x y, (body H = storeReg R w H d j x >>= fun H' => storeReg R w H' e j y) ∧
      (∀ t, t < ratio R w → lane w x t = g (fun b => el H b (j * ratio R w + t))) ∧
      ∀ t, t < ratio R w → lane w y t = h (fun b => el H b (j * ratio R w + t))) :
    Cols p len bl (fun c => j * ratio R w ≤ c ∧ c < (j + 1) * ratio R w) (updB2 d e g h) body := by
  intro H hG
  have ex : (j + 1) * ratio R w = j * ratio R w + ratio R w := by ring
  obtain ⟨h1, h2, h3⟩ := hG d hd
  obtain ⟨h1', h2', h3'⟩ := hG e he
  obtain ⟨x, y, eb, hx, hy⟩ := hb H hG
  obtain ⟨H1, e1, s1, z1, c1⟩ := storeReg_el (R := R) (w := w) (x := x) (j := j) h1 (by omega)
  obtain ⟨H2, e2, s2, z2, c2⟩ := storeReg_el (R := R) (w := w) (H := H1) (d := e) (x := y) (j := j) (by omega) (by rw [z1]; omega)
  refine ⟨H2, by rw [eb, e1, ok_bind, e2], s2.trans s1, fun b => (z2 b).trans (z1 b), fun b k => ?_⟩
  rw [c2, c1]
  unfold updB2
  by_cases hk : j * ratio R w ≤ k ∧ k < (j + 1) * ratio R w
  · rw [if_pos hk]
    by_cases hb : b = d
    · rw [if_neg (fun h => hde (hb ▸ h.1)), if_pos ⟨hb, hk⟩, if_pos hb, hx _ (by omega), Nat.add_sub_cancel' hk.1]
    · rw [if_neg (c := b = d ∧ _) (fun h => hb h.1), if_neg hb]
      by_cases hb' : b = e
      · rw [if_pos ⟨hb', hk⟩, if_pos hb', hy _ (by omega), Nat.add_sub_cancel' hk.1]
      · rw [if_neg (fun h => hb' h.1), if_neg hb']
  · rw [if_neg (fun h => hk h.2), if_neg (fun h => hk h.2), if_neg hk]

/-- an unrolled loop whose turn `j` acts on the columns of register `j` -/
theorem forN_mul {k q : Nat} (body : Nat → Heap → Res Heap) (H : Heap) :
    forN (q * k) H body = forN q H (fun i H => forN k H (fun t H => body (i * k + t) H)) := by
  have add : ∀ a b, forN (a + b) H body = forN a H body >>= fun H => forN b H (fun t H => body (a + t) H) := by
    intro a b
    induction b with
    | zero => cases h : forN a H body <;> simp [forN, h]
    | succ b ih =>
      rw [← Nat.add_assoc]
      simp only [forN]
      rw [ih]
      cases h : forN a H body <;> simp
  induction q with
  | zero => simp [forN]
  | succ q ih =>
    rw [Nat.succ_mul, add, ih]
    rfl

theorem unrolled_eq {k : Nat} (hk : 0 < k) (n : Nat) (body : Nat → Heap → Res Heap) (H : Heap) :
    unrolled k n body H = forN n H body := by
  have hst : stride 0 (n - (k - 1)) k = n / k := by
    unfold stride
    by_cases h : n < k
    · rw [Nat.div_eq_of_lt h, show n - (k - 1) - 0 + (k - 1) = k - 1 by omega, Nat.div_eq_of_lt (by omega)]
    · congr 1; omega
  have hle : n / k * k ≤ n := Nat.div_mul_le_self n k
  unfold unrolled forStep
  rw [hst]
  have h2 : stride (n / k * k) n 1 = n - n / k * k := by unfold stride; omega
  rw [h2]
  have add : ∀ a b, forN (a + b) H body = forN a H body >>= fun H => forN b H (fun t H => body (a + t) H) := by
    intro a b
    induction b with
    | zero => cases h : forN a H body <;> simp [forN, h]
    | succ b ih =>
      rw [← Nat.add_assoc]
      simp only [forN]
      rw [ih]
      cases h : forN a H body <;> simp
  conv_rhs => rw [show n = n / k * k + (n - n / k * k) by omega, add, forN_mul]
  simp only [Nat.zero_add, Nat.mul_one]

end Simd
end Quad
