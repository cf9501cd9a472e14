import Verif.Lemmas.FftObj

/-!
# The packet versions of Size2, Single and Naive
-/

namespace Quad
open Finset Quad.Spec

variable {F : GF} [F.Plain] {K : Type} [Field K] {S : F.Sim K} {b q : Nat}

/-- packets of `pkt` words -/
def Shape (n pkt : Nat) (a : Array (Array Nat)) : Prop := a.size = n ∧ ∀ j, j < n → (gt a j).size = pkt

/-- `f` computes the transform of every column -/
def IsDftB (S : F.Sim K) (f : Array (Array Nat) → Array (Array Nat) → Res (Array (Array Nat))) (n pkt : Nat) (w : K) : Prop :=
  ∀ out x, Shape n pkt out → Shape n pkt x → (∀ j, j < n → ∀ u, u < pkt → S.V (gt (gt x j) u)) →
    ∃ r, f out x = .ok r ∧ Shape n pkt r ∧ ∀ i, i < n → ∀ u, u < pkt → S.V (gt (gt r i) u) ∧
      S.φ (gt (gt r i) u) = ∑ j ∈ range n, w ^ (i * j) * S.φ (gt (gt x j) u)

theorem col_size (a : Array (Array Nat)) (c : Nat) : (col a c).size = a.size := by simp [col]

theorem col_gt {a : Array (Array Nat)} {c j : Nat} (h : j < a.size) : gt (col a c) j = gt (gt a j) c := by
  rw [gt_eq (by simpa [col] using h), gt_eq h]; simp [col]

theorem IsPkts.shape {n pkt : Nat} {a : Array (Array Nat)} (h : IsPkts q n pkt a) : Shape n pkt a :=
  ⟨h.1, fun j hj => (h.2 j hj).1⟩

theorem IsDftB.eq_dftVec (D : DftField F b q S) {f : Array (Array Nat) → Array (Array Nat) → Res (Array (Array Nat))} {n pkt w : Nat}
    (hw : S.V w) (hf : IsDftB S f n pkt (S.φ w)) {out x : Array (Array Nat)} (ho : Shape n pkt out) (hx : IsPkts q n pkt x) :
    ∃ r, f out x = .ok r ∧ IsPkts q n pkt r ∧ ∀ c, c < pkt → col r c = dftVec F w (col x c) := by
  have hv : ∀ j, j < n → ∀ u, u < pkt → S.V (gt (gt x j) u) := fun j hj u hu => (D.val _).2 ((hx.2 j hj).2 u hu)
  obtain ⟨r, e, h1, h2⟩ := hf out x ho (IsPkts.shape hx) hv
  refine ⟨r, e, ⟨h1.1, fun j hj => ⟨h1.2 j hj, fun u hu => (D.val _).1 (h2 j hj u hu).1⟩⟩, fun c hc => ?_⟩
  have hs : (col x c).size = n := by rw [col_size, hx.1]
  have hvc : ∀ j, j < (col x c).size → S.V (gt (col x c) j) := by
    intro j hj
    rw [hs] at hj
    rw [col_gt (by rw [hx.1]; exact hj)]; exact hv j hj c hc
  refine gt_ext (by rw [col_size, h1.1]; simp [dftVec, hs]) fun i hi => ?_
  rw [col_size, h1.1] at hi
  have d := dftAt_sem hw (x := col x c) hvc i
  unfold dftVec
  rw [gt_ofFn (by rw [hs]; exact hi), col_gt (by rw [h1.1]; exact hi)]
  refine D.full.inj (h2 i hi c hc).1 d.1 ?_
  rw [(h2 i hi c hc).2, d.2, hs]
  refine sum_congr rfl fun j hj => ?_
  rw [col_gt (by rw [hx.1]; exact mem_range.mp hj)]

/-! ## Size2 -/

theorem size2_dftB {w : K} (hw : w = -1) (pkt : Nat) : IsDftB S (Size2.fftB F) 2 pkt w := by
  intro out x ho hx hv
  obtain ⟨o, e0, s0, h0⟩ := forN_inv (n := x.size) (s := out)
    (f := fun i out => do
      let y ← rd x i
      wr out i y)
    (I := fun k (o : Array (Array Nat)) => o.size = 2 ∧ ∀ j, j < k → gt o j = gt x j) ⟨ho.1, by omega⟩ (by
      rintro k o hk ⟨o1, o2⟩
      have := hx.1
      refine ⟨o.setIfInBounds k (gt x k), by rw [rd_gt (by omega), ok_bind, wr_ok (by omega)], by simp [o1], ?_⟩
      intro j hj
      rw [gt_set (by omega)]
      split
      · rename_i h; rw [h]
      · exact o2 j (by omega))
  rw [hx.1] at h0
  have g0 : (gt x 0).size = pkt := hx.2 0 (by omega)
  have g1 : (gt x 1).size = pkt := hx.2 1 (by omega)
  obtain ⟨u, eu, u1, u2⟩ := pktLoop1 (pkt := pkt) (a := gt x 0) (f := fun j y => F.add (gt (gt x 1) j) y)
    (body := fun j o => do
      let p ← rd (gt x 1) j
      let y ← rd o j
      wr o j (F.add p y)) g0 (by
        intro j s hj1 hj2
        rw [rd_gt (by omega), ok_bind, rd_gt (by omega), ok_bind, wr_ok hj2])
  obtain ⟨v, ev, v1, v2⟩ := pktLoop1 (pkt := pkt) (a := gt x 1) (f := fun j y => F.sub (gt (gt x 0) j) y)
    (body := fun j o => do
      let p ← rd (gt x 0) j
      let y ← rd o j
      wr o j (F.sub p y)) g1 (by
        intro j s hj1 hj2
        rw [rd_gt (by omega), ok_bind, rd_gt (by omega), ok_bind, wr_ok hj2])
  have hxs := hx.1
  refine ⟨(o.setIfInBounds 0 u).setIfInBounds 1 v, ?_, ⟨by simp [s0], ?_⟩, ?_⟩
  · unfold Size2.fftB
    rw [e0]
    simp only [ok_bind]
    rw [rd_gt (show 0 < x.size by omega), ok_bind, rd_gt (show 1 < x.size by omega), ok_bind, rd_gt (show 0 < o.size by omega), ok_bind,
      h0 0 (by omega), g1, eu]
    simp only [ok_bind]
    rw [wr_ok (show 0 < o.size by omega), ok_bind, rd_gt (by simp; omega), ok_bind, gt_set (by omega), if_neg (by omega),
      h0 1 (by omega), g0, ev, ok_bind, wr_ok (by simp; omega)]
  · intro j hj
    rw [gt_set (by simp; omega)]
    by_cases c : j = 1
    · rw [if_pos c]; exact v1
    · rw [if_neg c, gt_set (by omega), if_pos (by omega)]; exact u1
  · intro i hi c hc
    have a := S.add (hv 1 (by omega) c hc) (hv 0 (by omega) c hc)
    have d := S.sub (hv 0 (by omega) c hc) (hv 1 (by omega) c hc)
    rw [sum_range_succ, sum_range_one, gt_set (by simp; omega)]
    by_cases c1 : i = 1
    · rw [if_pos c1, v2 c hc]
      refine ⟨d.1, ?_⟩
      rw [d.2, c1, hw]; ring
    · rw [if_neg c1, gt_set (by omega), if_pos (by omega), u2 c hc]
      refine ⟨a.1, ?_⟩
      rw [a.2, show i = 0 by omega]; simp [add_comm]

/-! ## Naive -/

theorem naive_dftB {n pkt w : Nat} (hn0 : 0 < n) (hw : S.V w) (hone : S.φ w ^ n = 1) {W : Mat}
    (hW : Mat.Is W n n (fun i j => F.exp w ((i * j) % n))) : IsDftB S (Naive.fftB F n pkt W) n pkt (S.φ w) := by
  intro out x ho hx hv
  have hxs := hx.1
  obtain ⟨r, e, h1, h2, h3⟩ := forN_inv (n := n) (s := out)
    (f := fun i out => do
      let b ← rd out i
      let b ← forN n (Array.replicate b.size 0) (fun j b => do
        let ibuf ← rd x j
        let r ← W.get i j
        forN pkt b (fun u b => do
          let x ← rd b u
          let y ← rd ibuf u
          wr b u (F.add x (F.mul r y))))
      wr out i b)
    (I := fun k (o : Array (Array Nat)) => o.size = n ∧ (∀ j, j < n → (gt o j).size = pkt) ∧ ∀ i, i < k → ∀ u, u < pkt → S.V (gt (gt o i) u) ∧
      S.φ (gt (gt o i) u) = ∑ j ∈ range n, S.φ w ^ (i * j) * S.φ (gt (gt x j) u))
    ⟨ho.1, ho.2, by omega⟩ (by
      rintro i o hi ⟨o1, o2, o3⟩
      obtain ⟨r, e, r1, r2⟩ := forN_inv (n := n) (s := Array.replicate pkt 0)
        (f := fun j b => do
          let ibuf ← rd x j
          let r ← W.get i j
          forN pkt b (fun u b => do
            let x ← rd b u
            let y ← rd ibuf u
            wr b u (F.add x (F.mul r y))))
        (I := fun l (b : Array Nat) => b.size = pkt ∧ ∀ u, u < pkt → S.V (gt b u) ∧
          S.φ (gt b u) = ∑ j ∈ range l, S.φ w ^ (i * j) * S.φ (gt (gt x j) u))
        ⟨by simp, fun u hu => by rw [gt_replicate hu]; exact ⟨S.zero.1, by simpa using S.zero.2⟩⟩ (by
          rintro j b hj ⟨b1, b2⟩
          have hxj := hx.2 j hj
          have ex := S.exp (e := i * j % n) hw
          obtain ⟨t, et, t1, t2⟩ := pktLoop1 (pkt := pkt) (a := b)
            (f := fun u y => F.add y (F.mul (F.exp w (i * j % n)) (gt (gt x j) u)))
            (body := fun u b => do
              let p ← rd b u
              let y ← rd (gt x j) u
              wr b u (F.add p (F.mul (F.exp w (i * j % n)) y))) b1 (by
                intro u s hu1 hu2
                rw [rd_gt hu2, ok_bind, rd_gt (by omega), ok_bind, wr_ok hu2])
          refine ⟨t, by rw [rd_gt (by omega), ok_bind, hW.get hi hj, ok_bind]; exact et, t1, fun u hu => ?_⟩
          have mu := S.mul ex.1 (hv j hj u hu)
          have ad := S.add (b2 u hu).1 mu.1
          rw [t2 u hu]
          refine ⟨ad.1, ?_⟩
          rw [ad.2, (b2 u hu).2, mu.2, ex.2, sum_range_succ, pow_mod_eq hone])
      refine ⟨o.setIfInBounds i r, ?_, by simp [o1], ?_, ?_⟩
      · rw [rd_gt (by omega), ok_bind, o2 i hi]
        simp only [e, ok_bind]
        rw [wr_ok (by omega)]
      · intro j hj
        rw [gt_set (by omega)]
        split
        · exact r1
        · exact o2 j hj
      · intro j hj u hu
        rw [gt_set (by omega)]
        split
        · rename_i h; subst h; exact r2 u hu
        · exact o3 j (by omega) u hu)
  exact ⟨r, e, ⟨h1, h2⟩, h3⟩

/-! ## Scaling and the inverse -/

theorem scalePkts_spec {n pkt v : Nat} (hS : S.Neg1) (hv : S.V v) {a : Array (Array Nat)} (ha : Shape n pkt a)
    (hva : ∀ j, j < n → ∀ u, u < pkt → S.V (gt (gt a j) u)) :
    ∃ r, scalePkts F n v a = .ok r ∧ Shape n pkt r ∧ ∀ j, j < n → ∀ u, u < pkt → S.V (gt (gt r j) u) ∧
      S.φ (gt (gt r j) u) = S.φ v * S.φ (gt (gt a j) u) := by
  obtain ⟨r, e, h1, h2, h3⟩ := forN_inv (n := n) (s := a)
    (f := fun i out => do
      let b ← rd out i
      let b ← (pktCell F b.size).scale v b
      wr out i b)
    (I := fun k (r : Array (Array Nat)) => r.size = n ∧ (∀ j, j < n → (gt r j).size = pkt) ∧ ∀ j, j < n →
      if j < k then ∀ u, u < pkt → S.V (gt (gt r j) u) ∧ S.φ (gt (gt r j) u) = S.φ v * S.φ (gt (gt a j) u) else gt r j = gt a j)
    ⟨ha.1, ha.2, fun j hj => by rw [if_neg (by omega)]⟩ (by
      rintro k r hk ⟨r1, r2, r3⟩
      have rk := r3 k hk
      rw [if_neg (by omega)] at rk
      obtain ⟨u, eu, u1, u2⟩ := pktSim_scales S hS (pkt := pkt) hv (a := gt a k) ⟨ha.2 k hk, hva k hk⟩
      refine ⟨r.setIfInBounds k u, ?_, by simp [r1], ?_, ?_⟩
      · rw [rd_gt (by omega), ok_bind, rk, ha.2 k hk, eu, ok_bind, wr_ok (by omega)]
      · intro j hj
        rw [gt_set (by omega)]
        split
        · exact u1.1
        · exact r2 j hj
      · intro j hj
        rw [gt_set (by omega)]
        by_cases c : j = k
        · subst c
          rw [if_pos (by omega), if_pos rfl]
          intro i hi
          exact ⟨u1.2 i hi, congrFun u2 ⟨i, hi⟩⟩
        · rw [if_neg c]
          have := r3 j hj
          by_cases d : j < k
          · rw [if_pos d] at this; rw [if_pos (by omega)]; exact this
          · rw [if_neg d] at this; rw [if_neg (by omega)]; exact this)
  refine ⟨r, e, ⟨h1, h2⟩, fun j hj => ?_⟩
  have := h3 j hj
  rw [if_pos hj] at this
  exact this

/-- the packet `fft_inv` and the scaling by `inv_n` undo the packet `fft` -/
theorem ifft_fftB (D : DftField F b q S) (hS : S.Neg1) {n pkt : Nat} (hn : n ∣ q - 1) {w : K} (hp : IsPrimitiveRoot w n) {v : Nat}
    (hV : S.V v) (hvn : S.φ v * (n : K) = 1)
    {fft fft_inv : Array (Array Nat) → Array (Array Nat) → Res (Array (Array Nat))} (hf : IsDftB S fft n pkt w) (hi : IsDftB S fft_inv n pkt w⁻¹)
    {out out' x : Array (Array Nat)} (ho : Shape n pkt out) (ho' : Shape n pkt out') (hx : Shape n pkt x)
    (hv : ∀ j, j < n → ∀ u, u < pkt → S.V (gt (gt x j) u)) :
    ∃ y, fft out x = .ok y ∧ (fft_inv out' y >>= fun o => scalePkts F n v o) = .ok x ∧
      (v = 1 → fft_inv out' y = .ok x) := by
  have hn0 := D.dvd_pos hn
  obtain ⟨y, ey, y1, y2⟩ := hf out x ho hx hv
  obtain ⟨z, ez, z1, z2⟩ := hi out' y ho' y1 (fun j hj u hu => (y2 j hj u hu).1)
  have hz : ∀ k, k < n → ∀ u, u < pkt → S.φ (gt (gt z k) u) = (n : K) * S.φ (gt (gt x k) u) := by
    intro k hk u hu
    rw [(z2 k hk u hu).2]
    have h := dft_dft_inv (K := K) (M := K) hn0 hp (fun j => S.φ (gt (gt x j) u)) hk
    simp only [dft, smul_eq_mul] at h
    rw [← h]
    exact sum_congr rfl fun j hj => by rw [(y2 j (mem_range.mp hj) u hu).2]
  obtain ⟨r, er, r1, r2⟩ := scalePkts_spec hS hV z1 (fun j hj u hu => (z2 j hj u hu).1)
  refine ⟨y, ey, ?_, fun h1 => ?_⟩
  · rw [ez, ok_bind, er]
    congr 1
    refine gt_ext (by rw [r1.1, hx.1]) fun j hj => ?_
    rw [r1.1] at hj
    refine gt_ext (by rw [r1.2 j hj, hx.2 j hj]) fun u hu => ?_
    rw [r1.2 j hj] at hu
    refine D.full.inj (r2 j hj u hu).1 (hv j hj u hu) ?_
    rw [(r2 j hj u hu).2, hz j hj u hu, ← mul_assoc, hvn, one_mul]
  · rw [ez]
    congr 1
    refine gt_ext (by rw [z1.1, hx.1]) fun j hj => ?_
    rw [z1.1] at hj
    refine gt_ext (by rw [z1.2 j hj, hx.2 j hj]) fun u hu => ?_
    rw [z1.2 j hj] at hu
    refine D.full.inj (z2 j hj u hu).1 (hv j hj u hu) ?_
    rw [h1, D.full.v1.2, one_mul] at hvn
    rw [hz j hj u hu, hvn, one_mul]

theorem naive_built (D : DftField F b q S) {n w pkt : Nat} (hn : n ∣ q - 1) (hsq : (n - 1) * (n - 1) < 2 ^ 31) (hw : S.V w)
    (hone : S.φ w ^ n = 1) (mem : Nat → Nat) :
    ∃ v W W', Naive.mk' F n w pkt mem = .ok (Naive.ft F n pkt v W W') ∧ F.invN n = .ok v ∧
      IsFT S (Naive.ft F n pkt v W W') n (S.φ w) ∧ IsDftB S (Naive.fftB F n pkt W) n pkt (S.φ w) ∧
      IsDftB S (Naive.fftB F n pkt W') n pkt (S.φ w)⁻¹ := by
  have hn0 := D.dvd_pos hn
  obtain ⟨v, ev, _⟩ := D.invN n hn
  obtain ⟨iw, ei, i1, i2⟩ := D.inv hw hn0 hone
  obtain ⟨W, eW, hW⟩ := compute_W_spec (F := F) hsq mem w
  obtain ⟨W', eW', hW'⟩ := compute_W_spec (F := F) hsq mem iw
  refine ⟨v, W, W', ?_, ev, ⟨naive_mul_dft hn0 hw hone hW, ?_⟩, naive_dftB hn0 hw hone hW, ?_⟩
  · unfold Naive.mk'
    rw [intLen_of (lt_of_sq hsq), ok_bind, ev, ok_bind, ei, ok_bind, eW, ok_bind, eW', ok_bind]
    rfl
  · have := naive_mul_dft hn0 i1 (by rw [i2, inv_pow, hone, inv_one]) hW'
    rw [i2] at this
    exact this
  · have := naive_dftB (pkt := pkt) hn0 i1 (by rw [i2, inv_pow, hone, inv_one]) hW'
    rw [i2] at this
    exact this

end Quad
