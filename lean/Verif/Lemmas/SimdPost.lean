import Verif.Lemmas.SimdFft4
import Verif.Lemmas.FecFntBuf

/-!
The vectorised search for symbols out of range.
-/

namespace Quad
open Simd

namespace Simd

theorem testBit_sum (b : Nat → Nat) (hb : ∀ j, b j < 2) (R : Nat) :
    ((List.range R).map (fun j => b j * 2 ^ j)).sum < 2 ^ R ∧
    ∀ t, ((List.range R).map (fun j => b j * 2 ^ j)).sum.testBit t = (decide (t < R) && decide (b t = 1)) := by
  induction R with
  | zero => simp
  | succ R ih =>
    rw [List.range_succ, List.map_append, List.sum_append]
    simp only [List.map_cons, List.map_nil, List.sum_cons, List.sum_nil, Nat.add_zero]
    have h2 := hb R
    have hlt := ih.1
    have hle : b R * 2 ^ R ≤ 1 * 2 ^ R := Nat.mul_le_mul_right _ (by omega)
    refine ⟨by rw [pow_succ]; omega, fun t => ?_⟩
    rw [Nat.add_comm, Nat.mul_comm, Nat.testBit_two_pow_mul_add _ ih.1]
    by_cases ht : t < R
    · rw [if_pos ht, ih.2]; simp [ht, Nat.lt_succ_of_lt ht]
    · rw [if_neg ht]
      by_cases he : t = R
      · subst he
        have : b t = 0 ∨ b t = 1 := by omega
        rcases this with h | h <;> simp [h]
      · have h1 : ¬ t < R + 1 := by omega
        have : (b R).testBit (t - R) = false := Nat.testBit_lt_two_pow (lt_of_lt_of_le h2 (by
          calc 2 = 2 ^ 1 := rfl
            _ ≤ _ := Nat.pow_le_pow_right (by omega) (by omega)))
        rw [this]; simp [h1]

theorem ctz_eq {d t : Nat} (ht : t < 32) (h : d.testBit t = true) (h' : ∀ j, j < t → d.testBit j = false) :
    propsLoop.ctz d = t := by
  unfold propsLoop.ctz
  rw [List.findIdx_eq (by simpa using ht)]
  simp only [List.getElem_range]
  exact ⟨h, fun j hj => by rw [h' j hj]⟩

variable {w : Nat} (hw : Lane w)

include hw in
theorem propsLoop_spec {off r : Nat} (hr : r * w ≤ 32) (E : Nat → Bool) : ∀ (n s fuel d : Nat) (P : Properties), s + n = r → n < fuel →
    (∀ t, d.testBit t = (decide (t % w = w - 1) && decide (s ≤ t / w) && decide (t / w < r) && E (t / w))) →
    propsLoop w off fuel d P = .ok ⟨P.props ++
      (marksOf (fun i => if E (s + i) then some OOR_MARK else none) n).map (fun x => (off + s + x.1, x.2))⟩ := by
  have hw0 := hw.pos
  intro n
  induction n with
  | zero =>
    intro s fuel d P hs hf hd
    have h0 : d = 0 := by
      apply Nat.eq_of_testBit_eq
      intro t
      rw [hd, Nat.zero_testBit]
      by_cases h : s ≤ t / w
      · have : ¬ t / w < r := by omega
        simp [this]
      · simp [h]
    obtain ⟨f, rfl⟩ : ∃ f, fuel = f + 1 := ⟨fuel - 1, by omega⟩
    subst h0
    simp [propsLoop, marksOf]
  | succ n ih =>
    intro s fuel d P hs hf hd
    have hsplit : marksOf (fun i => if E (s + i) then some OOR_MARK else none) (n + 1) =
        (if E s then [(0, OOR_MARK)] else []) ++
        (marksOf (fun i => if E (s + 1 + i) then some OOR_MARK else none) n).map (fun x => (1 + x.1, x.2)) := by
      rw [Nat.add_comm n 1, marksOf_add]
      congr 1
      · cases hE : E s <;> simp [marksOf, hE]
      · simp only [← Nat.add_assoc]
    by_cases hE : E s = true
    · have hb : ∀ i t, t < w → (i * w + t) / w = i ∧ (i * w + t) % w = t := fun i t ht => by
        rw [Nat.mul_comm i w, Nat.mul_add_div hw0, Nat.mul_add_mod, Nat.div_eq_of_lt ht, Nat.mod_eq_of_lt ht, Nat.add_zero]
        exact ⟨rfl, rfl⟩
      obtain ⟨q1, q2⟩ := hb s (w - 1) (by omega)
      have hbit : d.testBit (s * w + (w - 1)) = true := by
        rw [hd, q1, q2, hE]; simp; omega
      have hlow : ∀ j, j < s * w + (w - 1) → d.testBit j = false := by
        intro j hj
        rw [hd]
        by_cases h : s ≤ j / w
        · have h2 : s * w ≤ j := le_trans (Nat.mul_le_mul_right _ h) (Nat.div_mul_le_self _ _)
          have h3 := hb s (j - s * w) (by omega)
          rw [Nat.add_sub_cancel' h2] at h3
          have : ¬ j % w = w - 1 := by omega
          simp [this]
        · simp [h]
      have hlt : s * w + (w - 1) < 32 := by
        have : (s + 1) * w ≤ r * w := Nat.mul_le_mul_right _ (by omega)
        rw [show (s + 1) * w = s * w + w by ring] at this
        omega
      obtain ⟨f, rfl⟩ : ∃ f, fuel = f + 1 := ⟨fuel - 1, by omega⟩
      have hd0 : d > 0 := by
        rcases Nat.eq_zero_or_pos d with h | h
        · rw [h, Nat.zero_testBit] at hbit; cases hbit
        · exact h
      unfold propsLoop
      rw [if_pos hd0]
      dsimp only
      rw [ctz_eq hlt hbit hlow, q1, ih (s + 1) f _ _ (by omega) (by omega)]
      · rw [hsplit, if_pos hE]
        simp only [Properties.add, List.append_assoc, List.map_append, List.map_map]
        congr 3
        congr 1
        apply List.map_congr_left
        intro x _
        simp only [Function.comp]
        rw [show off + s + (1 + x.1) = off + (s + 1) + x.1 by omega]
      · intro t
        rw [Nat.testBit_xor, Nat.testBit_two_pow, hd]
        by_cases ht : s * w + (w - 1) = t
        · rw [← ht, q1, q2, hE]
          have : ¬ s + 1 ≤ s := by omega
          have h2 : s < r := by omega
          simp [this, h2]
        · by_cases h1 : t / w = s
          · have : ¬ t % w = w - 1 := by
              intro h2
              apply ht
              rw [← h1, ← h2, Nat.mul_comm, Nat.div_add_mod]
            simp [ht, this]
          · have : (s ≤ t / w) ↔ (s + 1 ≤ t / w) := by omega
            simp [ht, this]
    · rw [ih (s + 1) fuel d P (by omega) (by omega)]
      · rw [hsplit, if_neg hE]
        simp only [List.nil_append, List.map_map]
        congr 3
        apply List.map_congr_left
        intro x _
        simp only [Function.comp]
        rw [show off + s + (1 + x.1) = off + (s + 1) + x.1 by omega]
      · intro t
        rw [hd]
        by_cases h1 : t / w = s
        · have : E (t / w) = false := by rw [h1]; simpa using hE
          simp [this]
        · have : (s ≤ t / w) ↔ (s + 1 ≤ t / w) := by omega
          simp [this]

/-- marks of the symbols `i < n` of a block -/
def marksAt (H : Heap) (chunk th j0 n : Nat) : List (Nat × Nat) :=
  marksOf (fun c => if el H chunk (j0 + c) = th then some OOR_MARK else none) n

variable {R : Nat} (hR : RegSize R)

include hR hw in
theorem postVec_spec {chunk off v : Nat} {H : Heap} {P' : Properties} (hc : chunk < H.size) (hv : (v + 1) * ratio R w ≤ (gt H chunk).size)
    (hcl : ∀ c, c < (gt H chunk).size → el H chunk c < P w) :
    postVec R w (P w - 1) chunk off H v P' = .ok ⟨P'.props ++
      (marksAt H chunk (P w - 1) (v * ratio R w) (ratio R w)).map (fun x => (off + v * ratio R w + x.1, x.2))⟩ := by
  have hw0 := hw.pos
  obtain ⟨hrw, hr0⟩ := ratio_mul hR hw
  have ev : (v + 1) * ratio R w = v * ratio R w + ratio R w := by ring
  have hR32 : R ≤ 32 := by rcases hR with h | h <;> omega
  obtain ⟨x, e, hx⟩ := loadReg_el hR hw (H := H) (s := chunk) (j := v) hc hv (fun c hc' => hcl c (by omega))
  have hthr : ∀ i, lane w (set_one w (P w - 1)) i = P w - 1 := fun i => lane_set_one hw (by have := hw.fit; omega)
  have hxb : ∀ t, t < R → x t = gt (gt H chunk) (v * ratio R w + t / w) / 256 ^ (t % w) % 256 := by
    intro t ht
    have e' := e
    unfold loadReg at e'
    rw [rd_gt hc, ok_bind, if_pos hv] at e'
    cases e'
    exact if_pos ht
  unfold postVec
  dsimp only
  rw [e, ok_bind]
  by_cases hz : and_is_zero R x (set_one w (P w - 1)) = true
  · rw [hz]
    have hno : ∀ c, c < ratio R w → ¬ el H chunk (v * ratio R w + c) = P w - 1 := by
      intro c hc' he
      unfold and_is_zero at hz
      rw [List.all_eq_true] at hz
      have hlt : c * w + w / 2 < R := by
        have : (c + 1) * w ≤ ratio R w * w := Nat.mul_le_mul_right _ hc'
        rw [show (c + 1) * w = c * w + w by ring, hrw] at this
        omega
      have := hz (c * w + w / 2) (List.mem_range.mpr hlt)
      have hd : (c * w + w / 2) / w = c ∧ (c * w + w / 2) % w = w / 2 := by
        rw [Nat.mul_comm c w, Nat.mul_add_div hw0, Nat.mul_add_mod, Nat.div_eq_of_lt (by omega), Nat.mod_eq_of_lt (by omega)]
        simp
      unfold el at he
      rw [hxb _ hlt, hd.1, hd.2, he] at this
      unfold set_one ofLanes at this
      rw [hd.2] at this
      dsimp only at this
      rcases hw with rfl | rfl <;> revert this <;> decide
    have hm : marksAt H chunk (P w - 1) (v * ratio R w) (ratio R w) = [] := by
      unfold marksAt
      rw [marksOf_congr (g := fun _ => none) (fun t ht => if_neg (hno t ht))]
      have : ∀ n, marksOf (fun _ => (none : Option Nat)) n = [] := fun n => by
        induction n with
        | zero => rfl
        | succ n ih => rw [marksOf_succ, ih]; simp
      exact this _
    rw [hm]
    simp
    rfl
  · have hz' : and_is_zero R x (set_one w (P w - 1)) = false := by simpa using hz
    rw [hz']
    simp only [Bool.not_false, if_true]
    unfold add_props
    dsimp only
    have hmask : ∀ j, j < R → bit_and (set_one w (2 ^ (8 * w - 1))) (compare_eq w (set_one w (P w - 1)) x) j / 128 % 2 =
        if j % w = w - 1 ∧ el H chunk (v * ratio R w + j / w) = P w - 1 then 1 else 0 := by
      intro j hj
      have hjw : j % w < w := Nat.mod_lt _ hw0
      have hjd : j / w < ratio R w := by
        rw [Nat.div_lt_iff_lt_mul hw0, hrw]; exact hj
      have ej : j / w * w + j % w = j := by rw [Nat.mul_comm, Nat.div_add_mod]
      have hcmp : compare_eq w (set_one w (P w - 1)) x j = if el H chunk (v * ratio R w + j / w) = P w - 1 then 255 else 0 := by
        have := cmp_byte hw (x := set_one w (P w - 1)) (y := x) (i := j / w) (t := j % w) hjw
        rw [ej, hthr, hx _ hjd] at this
        rw [this]
        by_cases h : el H chunk (v * ratio R w + j / w) = P w - 1
        · rw [if_pos h.symm, if_pos h]
        · rw [if_neg (fun h' => h h'.symm), if_neg h]
      have hm : set_one w (2 ^ (8 * w - 1)) j = if j % w = w - 1 then 128 else 0 := by
        unfold set_one ofLanes
        dsimp only
        generalize j % w = t at hjw ⊢
        rcases hw with rfl | rfl
        · interval_cases t <;> decide
        · interval_cases t <;> decide
      unfold bit_and
      rw [hcmp, hm]
      by_cases h1 : j % w = w - 1 <;> by_cases h2 : el H chunk (v * ratio R w + j / w) = P w - 1 <;> simp [h1, h2]
    have hb : ∀ t, (msb8_mask R (bit_and (set_one w (2 ^ (8 * w - 1))) (compare_eq w (set_one w (P w - 1)) x))).testBit t =
        (decide (t % w = w - 1) && decide (0 ≤ t / w) && decide (t / w < ratio R w) &&
          decide (el H chunk (v * ratio R w + t / w) = P w - 1)) := by
      intro t
      unfold msb8_mask
      rw [(testBit_sum _ (fun j => Nat.mod_lt _ (by omega)) R).2 t]
      have hlt : t < R ↔ t / w < ratio R w := by rw [Nat.div_lt_iff_lt_mul hw0, hrw]
      by_cases ht : t < R
      · rw [hmask t ht]
        have h' := hlt.mp ht
        by_cases h1 : t % w = w - 1 <;> by_cases h2 : el H chunk (v * ratio R w + t / w) = P w - 1 <;> simp [h1, h2, ht, h']
      · have h' : ¬ t / w < ratio R w := fun h => ht (hlt.mpr h)
        simp [ht, h']
    have hle : ratio R w ≤ R := Nat.div_le_self _ _
    rw [propsLoop_spec hw (r := ratio R w) (by rw [hrw]; exact hR32) (fun i => decide (el H chunk (v * ratio R w + i) = P w - 1))
      (ratio R w) 0 (R + 1) _ P' (by omega) (by omega) hb]
    simp only [Nat.zero_add, Nat.add_zero, decide_eq_true_eq]
    rfl

include hR hw in
/-- one fragment -/
theorem post_frag {chunk off pkt : Nat} {H : Heap} {Q : Properties} (hc : chunk < H.size) (hs : (gt H chunk).size = pkt)
    (hcl : ∀ c, c < pkt → el H chunk c < P w) :
    ∃ Q1, forN (pkt / ratio R w) Q (fun v Q => postVec R w (P w - 1) chunk off H v Q) = .ok Q1 ∧
      forStep (pkt / ratio R w * ratio R w) pkt 1 Q1 (fun j Q => do
        let v ← Heap.rdEl H chunk j
        if v = P w - 1 then pure (Q.add (off + j) OOR_MARK) else pure Q) =
    .ok ⟨Q.props ++ (marksAt H chunk (P w - 1) 0 pkt).map (fun x => (off + x.1, x.2))⟩ := by
  have hle : pkt / ratio R w * ratio R w ≤ pkt := Nat.div_mul_le_self _ _
  obtain ⟨Q1, e1, h1⟩ := forN_inv (n := pkt / ratio R w) (s := Q) (f := fun v Q => postVec R w (P w - 1) chunk off H v Q)
    (I := fun t (r : Properties) => r = ⟨Q.props ++ (marksAt H chunk (P w - 1) 0 (t * ratio R w)).map (fun x => (off + x.1, x.2))⟩)
    (by simp [marksAt, marksOf]) (by
      rintro t r ht rfl
      have h2 := Radix2.turn_le ht
      refine ⟨_, postVec_spec hw hR hc (by omega) (by rw [hs]; exact hcl), ?_⟩
      have ex : (t + 1) * ratio R w = t * ratio R w + ratio R w := by ring
      rw [ex]
      unfold marksAt
      rw [marksOf_add]
      simp only [Nat.zero_add, List.map_append, List.map_map, List.append_assoc]
      congr 3
      apply List.map_congr_left
      intro x _
      simp only [Function.comp, Nat.add_assoc])
  refine ⟨Q1, e1, ?_⟩
  obtain ⟨Q2, e2, h2⟩ := forStep_inv (a := pkt / ratio R w * ratio R w) (b := pkt) (st := 1) (s := Q1)
    (f := fun j Q => do
        let v ← Heap.rdEl H chunk j
        if v = P w - 1 then pure (Q.add (off + j) OOR_MARK) else pure Q)
    (I := fun t (r : Properties) => r = ⟨Q.props ++
      (marksAt H chunk (P w - 1) 0 (pkt / ratio R w * ratio R w + t)).map (fun x => (off + x.1, x.2))⟩)
    (by omega) (by rw [h1]; rfl) (by
      rintro t r ht rfl
      rw [Nat.mul_one] at ht ⊢
      rw [Heap.rdEl_ok hc (by omega), ok_bind]
      unfold marksAt
      rw [← Nat.add_assoc (pkt / ratio R w * ratio R w) t 1, marksOf_succ]
      simp only [Nat.zero_add]
      by_cases h : gt (gt H chunk) (pkt / ratio R w * ratio R w + t) = P w - 1
      · rw [if_pos h]
        refine ⟨_, rfl, ?_⟩
        simp [el, h, Properties.add]
      · rw [if_neg h]
        refine ⟨_, rfl, ?_⟩
        simp [el, h])
  rw [e2, h2]
  have : pkt / ratio R w * ratio R w + stride (pkt / ratio R w * ratio R w) pkt 1 = pkt := by unfold stride; omega
  rw [this]

include hR hw in
/-- the vectorised marking finds the symbols the scalar one finds -/
theorem post_eq {B : FecBase} (hcard : B.F.card = P w) {output : Bufs} {props : Array Properties} {off : Nat} {H : Heap}
    (h1 : B.n_outputs ≤ output.n) (h2 : B.n_outputs ≤ output.mem.size) (h3 : output.size = B.pkt_size) (h4 : B.n_outputs ≤ props.size)
    (ho : Okb B.pkt_size H output.mem) (hv : ∀ f, f < B.n_outputs → ∀ c, c < B.pkt_size → el H (gt output.mem f) c < P w) :
    encode_post_process R w B output props off H = RsFntObj.encode_post_process B output props off H := by
  have hp := P_pos hw
  have hP : P w - 1 = 2 ^ (4 * w) := by rcases hw with rfl | rfl <;> decide
  unfold encode_post_process RsFntObj.encode_post_process
  dsimp only
  rw [hcard, h3]
  have key : ∀ n, n ≤ B.n_outputs → forN n props (fun i props => do
      let chunk ← rd output.mem i
      let Q ← rd props i
      let Q ← forN (B.pkt_size / ratio R w) Q (fun v Q => postVec R w (P w - 1) chunk off H v Q)
      let Q ← forStep (B.pkt_size / ratio R w * ratio R w) B.pkt_size 1 Q (fun j Q => do
        let v ← Heap.rdEl H chunk j
        if v = P w - 1 then pure (Q.add (off + j) OOR_MARK) else pure Q)
      wr props i Q) = forN n props (fun i props => do
      let chunk ← output.get i
      let Q ← rd props i
      let Q ← RsFntObj.markLoop B.pkt_size (P w - 1) chunk off H Q
      wr props i Q) ∧ ∃ r, forN n props (fun i props => do
      let chunk ← output.get i
      let Q ← rd props i
      let Q ← RsFntObj.markLoop B.pkt_size (P w - 1) chunk off H Q
      wr props i Q) = .ok r ∧ r.size = props.size := by
    intro n
    induction n with
    | zero => intro _; exact ⟨rfl, props, rfl, rfl⟩
    | succ n ih =>
      intro hn
      obtain ⟨e, r, er, sr⟩ := ih (by omega)
      have hg : output.get n = .ok (gt output.mem n) := by
        unfold Bufs.get
        simp only [cassert, show n < output.n by omega, decide_true, if_true, ok_bind]
        exact rd_gt (by omega)
      have hb := ho n (by omega)
      have hm := RsFnt.markLoop_spec (e := 4 * w) (off := off) (P := gt r n) hb.1 hb.2 (fun c hc => by
        have := hv n (by omega) c hc; omega)
      obtain ⟨Q1, k1, k2⟩ := post_frag hw hR (off := off) (Q := gt r n) hb.1 hb.2 (hv n (by omega))
      simp only [forN]
      rw [e, er, ok_bind, ok_bind, rd_gt (show n < output.mem.size by omega), ok_bind, hg, ok_bind, rd_gt (a := r) (by omega), ok_bind, ok_bind,
        k1, ok_bind, k2, ok_bind, hP, hm, ok_bind]
      have hmk : marksAt H (gt output.mem n) (2 ^ (4 * w)) 0 B.pkt_size =
        marksOf (fun c => if el H (gt output.mem n) c = 2 ^ (4 * w) then some OOR_MARK else none) B.pkt_size := by
        unfold marksAt; simp only [Nat.zero_add]
      rw [hmk, wr_ok (by omega)]
      exact ⟨rfl, _, rfl, by simp [sr]⟩
  exact (key _ le_rfl).1

end Simd

/-! ### rows of buffers -/

namespace Simd
variable {R w : Nat} (hR : RegSize R) (hw : Lane w) {F : GF} (hF : F.ModP (P w)) {K : Type} [Field K] {S : F.Sim K}
  (hV : ∀ c, S.V c → c < P w)

include hR hw hF hV in
theorem mul_vec_eq {u : Array Nat} {src dest : Bufs} {H : Heap} {pkt : Nat} (hu : u.size = src.n)
    (hss : u.size ≤ src.mem.size) (hds : u.size ≤ dest.mem.size) (hpkt : src.size = pkt)
    (hinj : InjPtr dest.mem) (hal : ∀ i j, i < u.size → j < i → gt src.mem i ≠ gt dest.mem j)
    (hc : ∀ i, i < u.size → S.Coef (gt u i)) (hs : Okb pkt H src.mem) (hd : Okb pkt H dest.mem)
    (hVs : ∀ i c, i < u.size → c < pkt → S.V (el H (gt src.mem i) c)) :
    mul_vec_to_vecp R w F u src dest H = BufOps.mul_vec_to_vecp F u src dest H := by
  unfold mul_vec_to_vecp BufOps.mul_vec_to_vecp
  rw [hpkt]
  congr 1
  funext _
  have key : ∀ n, n ≤ u.size → forN n H (fun i H => do
        let coef ← rd u i
        let s ← rd src.mem i
        let d ← rd dest.mem i
        mulCoef R w F coef s d pkt H) = forN n H (fun i H => do
        let coef ← rd u i
        let s ← rd src.mem i
        let d ← rd dest.mem i
        BufOps.mulCoef F coef s d pkt H) ∧
      ∃ H2, forN n H (fun i H => do
        let coef ← rd u i
        let s ← rd src.mem i
        let d ← rd dest.mem i
        BufOps.mulCoef F coef s d pkt H) = .ok H2 ∧ H2.size = H.size ∧ (∀ b, (gt H2 b).size = (gt H b).size) ∧
        ∀ b, (∀ j, j < n → b ≠ gt dest.mem j) → gt H2 b = gt H b := by
    intro n
    induction n with
    | zero => intro _; exact ⟨rfl, H, rfl, rfl, fun _ => rfl, fun _ _ => rfl⟩
    | succ n ih =>
      intro hn
      obtain ⟨i1, H2, e2, s2, z2, q2⟩ := ih (by omega)
      simp only [forN]
      rw [i1, e2]
      simp only [ok_bind]
      rw [rd_gt (show n < u.size by omega), ok_bind, ok_bind, rd_gt (show n < src.mem.size by omega), ok_bind, ok_bind,
        rd_gt (show n < dest.mem.size by omega), ok_bind, ok_bind]
      have hb := hs n (by omega)
      have hd' := hd n (by omega)
      have es : gt H2 (gt src.mem n) = gt H (gt src.mem n) := q2 _ (fun j hj => hal n j (by omega) hj)
      have hVn : ∀ c, c < pkt → S.V (el H2 (gt src.mem n) c) := fun c hc' => by
        unfold el; rw [es]; exact hVs n c (by omega) hc'
      obtain ⟨H3, e3, o3, z3, _⟩ := mulCoef_spec (S := S) (H := H2) (d := gt dest.mem n) (s := gt src.mem n) (pkt := pkt)
        (hc n (by omega)) (by omega) (by omega) (by rw [z2]; exact hd'.2) (by rw [z2]; exact hb.2) hVn
      refine ⟨mulCoef_eq hR hw hF (by omega) (by omega) (by rw [z2]; exact hb.2) (by rw [z2]; exact hd'.2)
        (fun c hc' => hV _ (hVn c hc')), H3, e3, by rw [o3.1, s2], fun b => ?_, fun b hb' => ?_⟩
      · by_cases h : b = gt dest.mem n
        · rw [h, z3, hd'.2]
        · rw [o3.2 b h, z2]
      · rw [o3.2 b (hb' n (by omega)), q2 b (fun j hj => hb' j (by omega))]
  exact (key _ le_rfl).1

include hR hw hF hV in
theorem negBufs_eq {B : Bufs} {H : Heap} {pkt : Nat} (hn : B.n = B.mem.size) (hpkt : B.size = pkt) (hinj : InjPtr B.mem)
    (hd : Okb pkt H B.mem) (hVs : ∀ i c, i < B.mem.size → c < pkt → S.V (el H (gt B.mem i) c)) :
    negBufs R w F B H = BufOps.negBufs F B H := by
  unfold negBufs BufOps.negBufs
  rw [hpkt]
  have key : ∀ n, n ≤ B.mem.size → forN n H (fun i H => do
        let p ← B.get i
        neg R w F.card pkt p H) = forN n H (fun i H => do
        let p ← B.get i
        BufOps.negBuf F pkt p H) ∧
      ∃ H2, forN n H (fun i H => do
        let p ← B.get i
        BufOps.negBuf F pkt p H) = .ok H2 ∧ H2.size = H.size ∧ ∀ b, (∀ j, j < n → b ≠ gt B.mem j) → gt H2 b = gt H b := by
    intro n
    induction n with
    | zero => intro _; exact ⟨rfl, H, rfl, rfl, fun _ _ => rfl⟩
    | succ n ih =>
      intro hn'
      obtain ⟨i1, H2, e2, s2, q2⟩ := ih (by omega)
      have hg : B.get n = .ok (gt B.mem n) := by
        unfold Bufs.get
        simp only [cassert, show n < B.n by omega, decide_true, if_true, ok_bind]
        exact rd_gt (by omega)
      simp only [forN]
      rw [i1, e2]
      simp only [ok_bind]
      rw [hg, ok_bind, ok_bind]
      have hb := hd n (by omega)
      have es : gt H2 (gt B.mem n) = gt H (gt B.mem n) := q2 _ (fun j hj he => by
        have := hinj _ _ (by omega) (by omega) he; omega)
      have hVn : ∀ c, c < pkt → S.V (el H2 (gt B.mem n) c) := fun c hc' => by
        unfold el; rw [es]; exact hVs n c (by omega) hc'
      obtain ⟨H3, e3, o3, _⟩ := negBuf_spec (S := S) (H := H2) (d := gt B.mem n) (pkt := pkt) (by omega) (by rw [es]; exact hb.2) hVn
      refine ⟨neg_eq hR hw hF (bl := fun x => x = gt B.mem n) rfl ?_, H3, e3, by rw [o3.1, s2], fun b hb' => ?_⟩
      · rintro x rfl
        exact ⟨by omega, by rw [es]; exact hb.2, fun c hc' => hV _ (hVn c hc')⟩
      · rw [o3.2 b (hb' n (by omega)), q2 b (fun j hj => hb' j (by omega))]
  rw [hn]
  exact (key _ le_rfl).1

end Simd
end Quad
