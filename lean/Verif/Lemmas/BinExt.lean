import Verif.Lemmas.BinField

namespace Quad
namespace BinExt
open Polynomial
variable {n low b : Nat} {K : Type} [Field K] {r : K}

/-! ### split tables -/

/-- a 256 by 256 table -/
def Tab (g : Array (Array Nat)) : Prop := g.size = 256 ∧ ∀ i, i < 256 → (gt g i).size = 256

/-- entry of a table -/
def at2 (g : Array (Array Nat)) (i j : Nat) : Nat := gt (gt g i) j

theorem rd2_spec {g : Array (Array Nat)} (hT : Tab g) {i j : Nat} (hi : i < 256) (hj : j < 256) : rd2 g i j = .ok (at2 g i j) := by
  unfold rd2
  rw [rd_gt (by rw [hT.1]; exact hi), ok_bind, rd_gt (by rw [hT.2 i hi]; exact hj)]
  rfl

theorem wr2_spec {g : Array (Array Nat)} (hT : Tab g) {i j v : Nat} (hi : i < 256) (hj : j < 256) :
    ∃ g', wr2 g i j v = .ok g' ∧ Tab g' ∧ ∀ i' j', at2 g' i' j' = if i' = i ∧ j' = j then v else at2 g i' j' := by
  unfold wr2
  have h1 : i < g.size := by rw [hT.1]; exact hi
  rw [rd_gt h1, ok_bind, wr_ok (by rw [hT.2 i hi]; exact hj), ok_bind, wr_ok h1]
  refine ⟨_, rfl, ⟨by rw [size_set]; exact hT.1, ?_⟩, ?_⟩
  · intro i' hi'
    rw [gt_set h1]
    split
    · rw [size_set]; exact hT.2 i hi
    · exact hT.2 i' hi'
  · intro i' j'
    unfold at2
    rw [gt_set h1]
    by_cases hii : i' = i
    · subst hii
      rw [if_pos rfl, gt_set (by rw [hT.2 i' hi]; exact hj)]
      by_cases hjj : j' = j
      · rw [if_pos hjj, if_pos ⟨rfl, hjj⟩]
      · rw [if_neg hjj, if_neg (fun h => hjj h.2)]
    · rw [if_neg hii, if_neg (fun h => hii h.1)]

/-- the entry is the product `i * j * z` -/
def Ent (n : Nat) (r z : K) (g : Array (Array Nat)) (i j : Nat) : Prop :=
  at2 g i j < 2 ^ n ∧ bev r (at2 g i j) = bev r i * bev r j * z

theorem wr2_ent {z : K} {g : Array (Array Nat)} (hT : Tab g) {i j v : Nat} (hi : i < 256) (hj : j < 256) (hv : v < 2 ^ n)
    (e : bev r v = bev r i * bev r j * z) :
    ∃ g', wr2 g i j v = .ok g' ∧ Tab g' ∧ Ent n r z g' i j ∧ ∀ i' j', Ent n r z g i' j' → Ent n r z g' i' j' := by
  obtain ⟨g', e1, h1, h2⟩ := wr2_spec hT (v := v) hi hj
  have h3 : Ent n r z g' i j := by
    unfold Ent
    rw [h2, if_pos ⟨rfl, rfl⟩]
    exact ⟨hv, e⟩
  refine ⟨g', e1, h1, h3, ?_⟩
  intro i' j' h
  by_cases hij : i' = i ∧ j' = j
  · rw [hij.1, hij.2]; exact h3
  · unfold Ent
    rw [h2, if_neg hij]
    exact h

theorem xor_one_odd {i : Nat} (h : i % 2 = 1) : i ^^^ 1 = i - 1 := by
  have h1 : (i ^^^ 1) / 2 = i / 2 := by rw [Nat.xor_div_two]; simp
  have h2 : (i ^^^ 1) % 2 = 0 := by rw [Nat.xor_mod_two_eq]; omega
  omega

theorem and_one_ne {i : Nat} : i &&& 1 ≠ 0 ↔ i % 2 = 1 := by
  rw [Nat.and_one_is_mod]; omega

/-- `m2` multiplies by the root -/
def IsMul2 (n : Nat) (r : K) (m2 : Nat → Nat) : Prop := ∀ x, x < 2 ^ n → m2 x < 2 ^ n ∧ bev r (m2 x) = r * bev r x

theorem splitTable_spec [CharP K 2] {m2 : Nat → Nat} (hm : IsMul2 n r m2) {z : K} {base : Nat} (hb : base < 2 ^ n)
    (hz : bev r base = z) {g : Array (Array Nat)} (hT : Tab g) :
    ∃ g', splitTable m2 base g = .ok g' ∧ Tab g' ∧ ∀ i j, i < 256 → j < 256 → Ent n r z g' i j := by
  have hpos : 0 < (2 : Nat) ^ n := by positivity
  -- zeros
  obtain ⟨g1, e1, T1, z1⟩ := forN_inv (n := 256) (s := g)
    (f := fun j g => do
      let g ← wr2 g 0 j 0
      wr2 g j 0 0)
    (I := fun k g => Tab g ∧ ∀ j, j < k → Ent n r z g 0 j ∧ Ent n r z g j 0)
    ⟨hT, by intro j hj; omega⟩ (by
      rintro k g hk ⟨hT, hz⟩
      obtain ⟨g1, e1, T1, s1, k1⟩ := wr2_ent (n := n) (r := r) (z := z) hT (i := 0) (j := k) (v := 0) (by omega) hk hpos (by simp)
      obtain ⟨g2, e2, T2, s2, k2⟩ := wr2_ent (n := n) (r := r) (z := z) T1 (i := k) (j := 0) (v := 0) hk (by omega) hpos (by simp)
      refine ⟨g2, by beta_reduce; rw [e1, ok_bind, e2], T2, ?_⟩
      intro j hj
      by_cases hjk : j = k
      · subst hjk; exact ⟨k2 _ _ s1, s2⟩
      · have := hz j (by omega)
        exact ⟨k2 _ _ (k1 _ _ this.1), k2 _ _ (k1 _ _ this.2)⟩)
  obtain ⟨g2, e2, T2, s2, k2⟩ := wr2_ent (n := n) (r := r) (z := z) T1 (i := 1) (j := 1) (v := base) (by omega) (by omega) hb (by simp [hz])
  have z2 : ∀ j, j < 256 → Ent n r z g2 0 j ∧ Ent n r z g2 j 0 := fun j hj => ⟨k2 _ _ (z1 j hj).1, k2 _ _ (z1 j hj).2⟩
  -- first column
  obtain ⟨g3, e3, T3, z3, c3⟩ := forStep_inv (a := 2) (b := 256) (st := 1) (s := g2)
    (f := fun i g => do
      if i &&& 1 ≠ 0 then
        let x ← rd2 g (i ^^^ 1) 1
        wr2 g i 1 (x ^^^ base)
      else
        let x ← rd2 g (i / 2) 1
        wr2 g i 1 (m2 x))
    (I := fun k g => Tab g ∧ (∀ j, j < 256 → Ent n r z g 0 j ∧ Ent n r z g j 0) ∧ ∀ i, i < 2 + k → 1 ≤ i → Ent n r z g i 1)
    (by omega) ⟨T2, z2, fun i h1 h2 => (show i = 1 by omega) ▸ s2⟩ (by
      rintro k g hk ⟨hT, hz0, hc⟩
      have key : ∀ v, v < 2 ^ n → bev r v = bev r (2 + k * 1) * bev r 1 * z →
          ∃ s', wr2 g (2 + k * 1) 1 v = .ok s' ∧ Tab s' ∧ (∀ j, j < 256 → Ent n r z s' 0 j ∧ Ent n r z s' j 0) ∧
            ∀ i, i < 2 + (k + 1) → 1 ≤ i → Ent n r z s' i 1 := by
        intro v hv hev
        obtain ⟨g', e', T', s', k'⟩ := wr2_ent hT (i := 2 + k * 1) (j := 1) hk (by omega) hv hev
        refine ⟨g', e', T', fun j hj => ⟨k' _ _ (hz0 j hj).1, k' _ _ (hz0 j hj).2⟩, ?_⟩
        intro i h1 h2
        by_cases hik : i = 2 + k * 1
        · rw [hik]; exact s'
        · exact k' _ _ (hc i (by omega) h2)
      beta_reduce
      by_cases hodd : (2 + k * 1) % 2 = 1
      · rw [if_pos (and_one_ne.mpr hodd), xor_one_odd hodd, rd2_spec hT (by omega) (by omega), ok_bind]
        obtain ⟨q1, q2⟩ := hc (2 + k * 1 - 1) (by omega) (by omega)
        refine key _ (Nat.xor_lt_two_pow q1 hb) ?_
        rw [bev_xor, q2, hz, bev_step r (2 + k * 1), if_pos hodd, bev_step r (2 + k * 1 - 1), if_neg (by omega),
          show (2 + k * 1 - 1) / 2 = (2 + k * 1) / 2 by omega, bev_one]
        ring
      · rw [if_neg (mt and_one_ne.mp hodd), rd2_spec hT (by omega) (by omega), ok_bind]
        obtain ⟨q1, q2⟩ := hc ((2 + k * 1) / 2) (by omega) (by omega)
        obtain ⟨m1, m3⟩ := hm _ q1
        refine key _ m1 ?_
        rw [m3, q2, bev_step r (2 + k * 1), if_neg hodd]
        ring)
  have hst : stride 2 256 1 = 254 := by decide
  rw [hst] at c3
  -- the rest
  obtain ⟨g4, e4, T4, z4, c4, d4⟩ := forStep_inv (a := 1) (b := 256) (st := 1) (s := g3)
    (f := fun i g => do
      let x ← rd2 g i 1
      forStep 2 256 1 g (fun j g => do
        if j &&& 1 ≠ 0 then
          let y ← rd2 g i (j ^^^ 1)
          wr2 g i j (y ^^^ x)
        else
          let y ← rd2 g i (j / 2)
          wr2 g i j (m2 y)))
    (I := fun k g => Tab g ∧ (∀ j, j < 256 → Ent n r z g 0 j ∧ Ent n r z g j 0) ∧ (∀ i, i < 256 → 1 ≤ i → Ent n r z g i 1) ∧
      ∀ i, i < 1 + k → 1 ≤ i → ∀ j, j < 256 → Ent n r z g i j)
    (by omega) ⟨T3, z3, fun i h1 h2 => c3 i (by omega) h2, by intro i h1 h2; omega⟩ (by
      rintro k g hk ⟨hT, hz0, hc, hd⟩
      beta_reduce
      rw [rd2_spec hT hk (by omega), ok_bind]
      generalize hi : 1 + k * 1 = i at hk
      have hx := hc i hk (by omega)
      obtain ⟨g', e', T', z', c', d', f'⟩ := forStep_inv (a := 2) (b := 256) (st := 1) (s := g)
        (f := fun j g' => do
          if j &&& 1 ≠ 0 then
            let y ← rd2 g' i (j ^^^ 1)
            wr2 g' i j (y ^^^ at2 g i 1)
          else
            let y ← rd2 g' i (j / 2)
            wr2 g' i j (m2 y))
        (I := fun k' g' => Tab g' ∧ (∀ j, j < 256 → Ent n r z g' 0 j ∧ Ent n r z g' j 0) ∧ (∀ i, i < 256 → 1 ≤ i → Ent n r z g' i 1) ∧
          (∀ i, i < 1 + k → 1 ≤ i → ∀ j, j < 256 → Ent n r z g' i j) ∧ ∀ j, j < 2 + k' → Ent n r z g' i j)
        (by omega) ⟨hT, hz0, hc, hd, by
          intro j hj
          rcases Nat.lt_or_ge j 1 with h | h
          · have : j = 0 := by omega
            subst this; exact (hz0 i hk).2
          · have : j = 1 := by omega
            subst this; exact hx⟩ (by
          rintro k' g' hk' ⟨hT', hz', hc', hd', hf'⟩
          beta_reduce
          generalize hj : 2 + k' * 1 = j at hk'
          have key : ∀ v, v < 2 ^ n → bev r v = bev r i * bev r j * z →
              ∃ s', wr2 g' i j v = .ok s' ∧ Tab s' ∧ (∀ j, j < 256 → Ent n r z s' 0 j ∧ Ent n r z s' j 0) ∧
                (∀ i, i < 256 → 1 ≤ i → Ent n r z s' i 1) ∧
                (∀ i, i < 1 + k → 1 ≤ i → ∀ j, j < 256 → Ent n r z s' i j) ∧ ∀ j, j < 2 + (k' + 1) → Ent n r z s' i j := by
            intro v hv hev
            obtain ⟨g'', e'', T'', s'', k''⟩ := wr2_ent hT' (i := i) (j := j) hk hk' hv hev
            refine ⟨g'', e'', T'', fun j hj => ⟨k'' _ _ (hz' j hj).1, k'' _ _ (hz' j hj).2⟩,
              fun i h1 h2 => k'' _ _ (hc' i h1 h2), fun i h1 h2 j h3 => k'' _ _ (hd' i h1 h2 j h3), ?_⟩
            intro j' h1
            by_cases hjk : j' = j
            · rw [hjk]; exact s''
            · exact k'' _ _ (hf' j' (by omega))
          by_cases hodd : j % 2 = 1
          · rw [if_pos (and_one_ne.mpr hodd), xor_one_odd hodd, rd2_spec hT' hk (by omega), ok_bind]
            obtain ⟨q1, q2⟩ := hf' (j - 1) (by omega)
            refine key _ (Nat.xor_lt_two_pow q1 hx.1) ?_
            rw [bev_xor, q2, hx.2, bev_step r j, if_pos hodd, bev_step r (j - 1), if_neg (by omega),
              show (j - 1) / 2 = j / 2 by omega, bev_one]
            ring
          · rw [if_neg (mt and_one_ne.mp hodd), rd2_spec hT' hk (by omega), ok_bind]
            obtain ⟨q1, q2⟩ := hf' (j / 2) (by omega)
            obtain ⟨m1, m3⟩ := hm _ q1
            refine key _ m1 ?_
            rw [m3, q2, bev_step r j, if_neg hodd]
            ring)
      rw [hst] at f'
      refine ⟨g', e', T', z', c', ?_⟩
      intro i' h1 h2 j hj
      by_cases hii : i' = i
      · rw [hii]; exact f' j (by omega)
      · exact d' i' (by omega) h2 j hj)
  have hst1 : stride 1 256 1 = 255 := by decide
  rw [hst1] at d4
  refine ⟨g4, ?_, T4, ?_⟩
  · unfold splitTable
    rw [e1, ok_bind, e2, ok_bind, e3, ok_bind, e4]
  · intro i j hi hj
    rcases Nat.eq_zero_or_pos i with h | h
    · subst h; exact (z4 j hj).1
    · exact d4 i (by omega) h j hj

theorem repeat_mul2 {m2 : Nat → Nat} (hm : IsMul2 n r m2) {x : Nat} (hx : x < 2 ^ n) : ∀ k,
    Nat.repeat m2 k x < 2 ^ n ∧ bev r (Nat.repeat m2 k x) = r ^ k * bev r x := by
  intro k
  induction k with
  | zero => exact ⟨hx, by simp [Nat.repeat]⟩
  | succ k ih =>
    obtain ⟨h1, h2⟩ := hm _ ih.1
    exact ⟨h1, by rw [Nat.repeat, h2, ih.2]; ring⟩

theorem setup_split_spec [CharP K 2] (hn : 0 < n) {m2 : Nat → Nat} (hm : IsMul2 n r m2) (tab_nb : Nat) (junk : Nat → Nat → Nat → Nat) :
    ∃ G, setup_split_tables m2 tab_nb junk = .ok G ∧ G.size = tab_nb ∧
      ∀ t, t < tab_nb → Tab (gt G t) ∧ ∀ i j, i < 256 → j < 256 → Ent n r (r ^ (8 * t)) (gt G t) i j := by
  obtain ⟨s, e, h1, h2, h3⟩ := forN_inv (n := tab_nb) (s := ((#[] : Array (Array (Array Nat))), 1))
    (f := fun t s => do
      let g ← splitTable m2 s.2 (Array.ofFn (fun i : Fin 256 => Array.ofFn (fun j : Fin 256 => junk t i.1 j.1)))
      pure (s.1.push g, Nat.repeat m2 8 s.2))
    (I := fun k s => s.1.size = k ∧ (s.2 < 2 ^ n ∧ bev r s.2 = r ^ (8 * k)) ∧
      ∀ t, t < k → Tab (gt s.1 t) ∧ ∀ i j, i < 256 → j < 256 → Ent n r (r ^ (8 * t)) (gt s.1 t) i j)
    ⟨rfl, ⟨Nat.one_lt_two_pow hn.ne', by simp⟩, by intro t ht; omega⟩ (by
      rintro k ⟨G, base⟩ hk ⟨h1, ⟨h2, h2'⟩, h3⟩
      simp only at h1 h2 h2' h3 ⊢
      obtain ⟨g, e, T, c⟩ := splitTable_spec hm h2 h2' (g := Array.ofFn (fun i : Fin 256 => Array.ofFn (fun j : Fin 256 => junk k i.1 j.1)))
        ⟨by simp, by intro i hi; rw [gt_ofFn hi]; simp⟩
      obtain ⟨m1, m3⟩ := repeat_mul2 hm h2 8
      refine ⟨_, by rw [e, ok_bind]; rfl, by simp [h1], ⟨m1, by simp only; rw [m3, h2']; ring⟩, ?_⟩
      intro t ht
      have hpush : gt (G.push g) t = if t = k then g else gt G t := by
        unfold gt
        by_cases htk : t = k
        · subst htk; simp [← h1]
        · rw [if_neg htk]
          simp [Array.getElem?_push, h1, htk]
      simp only
      rw [hpush]
      by_cases htk : t = k
      · rw [if_pos htk, htk]; exact ⟨T, c⟩
      · rw [if_neg htk]; exact h3 t (by omega))
  exact ⟨s.1, by unfold setup_split_tables; rw [e]; rfl, h1, h3⟩

/-- reading a word by bytes -/
theorem bev_byte [CharP K 2] (r : K) (a : Nat) : bev r a = bev r (a &&& 0xff) + r ^ 8 * bev r (a >>> 8) := by
  have h1 : a &&& 0xff = a % 2 ^ 8 := Nat.and_two_pow_sub_one_eq_mod a 8
  rw [h1, Nat.shiftRight_eq_div_pow]
  have h2 : a = (a % 2 ^ 8) ^^^ (a / 2 ^ 8 * 2 ^ 8) := by
    have h3 : a = 2 ^ 8 * (a / 2 ^ 8) + a % 2 ^ 8 := (Nat.div_add_mod a (2 ^ 8)).symm
    conv_lhs => rw [h3, Nat.two_pow_add_eq_or_of_lt (Nat.mod_lt _ (by norm_num))]
    apply Nat.eq_of_testBit_eq
    intro i
    rw [Nat.testBit_or, Nat.testBit_xor, Nat.testBit_mod_two_pow, Nat.mul_comm, Nat.testBit_mul_two_pow]
    rcases Nat.lt_or_ge i 8 with h | h
    · simp [h, show ¬ 8 ≤ i by omega]
    · simp [h, show ¬ i < 8 by omega]
  conv_lhs => rw [h2, bev_xor, bev_mul_pow]
  ring

theorem mulSplit_spec [CharP K 2] {F : BinExt} (hs : F.sgroup_nb = n / 8) (hd : 8 ∣ n) (hG : F.gfsplit.size = n / 4 - 1)
    (hE : ∀ t, t < n / 4 - 1 → Tab (gt F.gfsplit t) ∧ ∀ i j, i < 256 → j < 256 → Ent n r (r ^ (8 * t)) (gt F.gfsplit t) i j)
    {a c : Nat} (ha : a < 2 ^ n) (hc : c < 2 ^ n) :
    ∃ m, F.mulSplit a c = .ok m ∧ m < 2 ^ n ∧ bev r m = bev r a * bev r c := by
  have hpos : 0 < (2 : Nat) ^ n := by positivity
  obtain ⟨s, rfl⟩ := hd
  have hs' : F.sgroup_nb = s := by rw [hs]; omega
  have hff : ∀ x : Nat, x &&& 0xff < 256 := fun x => by
    have h1 : x &&& 0xff = x % 2 ^ 8 := Nat.and_two_pow_sub_one_eq_mod x 8
    rw [h1]; exact Nat.mod_lt _ (by norm_num)
  have zero_of : ∀ x : Nat, x < 2 ^ (8 * s) → x >>> (8 * s) = 0 := by
    intro x hx
    rw [Nat.shiftRight_eq_div_pow, Nat.div_eq_of_lt hx]
  obtain ⟨q, e, h1, h2, h3⟩ := forN_inv (n := F.sgroup_nb) (s := ((0 : Nat), a))
    (f := fun i s => do
      let t ← forN F.sgroup_nb (s.1, c) (fun j t => do
        let g ← rd F.gfsplit (i + j)
        let v ← rd2 g (s.2 &&& 0xff) (t.2 &&& 0xff)
        pure (t.1 ^^^ v, t.2 >>> 8))
      pure (t.1, s.2 >>> 8))
    (I := fun k q => q.1 < 2 ^ (8 * s) ∧ q.2 = a >>> (8 * k) ∧ bev r q.1 + r ^ (8 * k) * bev r q.2 * bev r c = bev r a * bev r c)
    ⟨hpos, rfl, by simp⟩ (by
      rintro k ⟨p, a'⟩ hk ⟨h1, h2, h3⟩
      simp only at h1 h2 h3 ⊢
      rw [hs'] at hk
      obtain ⟨t, e, g1, g2, g3⟩ := forN_inv (n := F.sgroup_nb) (s := (p, c))
        (f := fun j t => do
          let g ← rd F.gfsplit (k + j)
          let v ← rd2 g (a' &&& 0xff) (t.2 &&& 0xff)
          pure (t.1 ^^^ v, t.2 >>> 8))
        (I := fun l q => q.1 < 2 ^ (8 * s) ∧ q.2 = c >>> (8 * l) ∧
          bev r q.1 + r ^ (8 * k) * bev r (a' &&& 0xff) * (r ^ (8 * l) * bev r q.2) = bev r p + r ^ (8 * k) * bev r (a' &&& 0xff) * bev r c)
        ⟨h1, rfl, by simp⟩ (by
          rintro l ⟨p', c'⟩ hl ⟨h1', h2', h3'⟩
          simp only at h1' h2' h3' ⊢
          rw [hs'] at hl
          have hlt : k + l < 8 * s / 4 - 1 := by omega
          obtain ⟨T, E⟩ := hE (k + l) hlt
          obtain ⟨E1, E2⟩ := E (a' &&& 0xff) (c' &&& 0xff) (hff _) (hff _)
          rw [rd_gt (by rw [hG]; exact hlt), ok_bind, rd2_spec T (hff _) (hff _), ok_bind]
          refine ⟨_, rfl, Nat.xor_lt_two_pow h1' E1, by simp only; rw [h2', ← Nat.shiftRight_add, show 8 * l + 8 = 8 * (l + 1) by ring], ?_⟩
          simp only
          rw [bev_xor, E2, ← h3', bev_byte r c']
          ring)
      rw [e, ok_bind]
      refine ⟨_, rfl, g1, by simp only; rw [h2, ← Nat.shiftRight_add, show 8 * k + 8 = 8 * (k + 1) by ring], ?_⟩
      rw [hs'] at g2
      rw [g2, zero_of c hc, bev_zero, mul_zero, mul_zero, add_zero] at g3
      simp only
      rw [g3, ← h3, bev_byte r a']
      ring)
  refine ⟨q.1, by unfold mulSplit; rw [e]; rfl, h1, ?_⟩
  rw [hs'] at h2
  rw [h2, zero_of a ha, bev_zero, mul_zero, zero_mul, add_zero] at h3
  exact h3

/-! ### degrees and the inverse -/

theorem deg_of_spec {F : BinExt} (hm : F.mask.size = n) (hmk : ∀ i, i < n → gt F.mask i = 2 ^ i) {x : Nat} (h0 : x ≠ 0) :
    ∀ d, d < n → x < 2 ^ (d + 1) → F.deg_of x d = .ok (Nat.log2 x) := by
  intro d
  induction d with
  | zero =>
    intro hd hx
    have : x = 1 := by simp at hx; omega
    subst this
    unfold deg_of
    rw [rd_gt (by omega), ok_bind, hmk 0 hd, if_neg (by simp)]
    rfl
  | succ d ih =>
    intro hd hx
    unfold deg_of
    rw [rd_gt (by omega), ok_bind, hmk _ hd, Nat.and_comm]
    have hiff := and_pow_ne (n := d + 1) hx
    by_cases h : 2 ^ (d + 1) ≤ x
    · rw [if_neg (hiff.mpr h)]
      congr 1
      exact ((Nat.log2_eq_iff h0).mpr ⟨h, hx⟩).symm
    · rw [if_pos (by_contra fun hh => h (hiff.mp hh))]
      exact ih (by omega) (by omega)

theorem xor_top {d x y : Nat} (hx : 2 ^ d ≤ x) (hx' : x < 2 ^ (d + 1)) (hy : 2 ^ d ≤ y) (hy' : y < 2 ^ (d + 1)) : x ^^^ y < 2 ^ d := by
  have h1 := sub_pow_eq_xor hx hx'
  have h2 := sub_pow_eq_xor hy hy'
  have h3 : x ^^^ y = (x ^^^ 2 ^ d) ^^^ (y ^^^ 2 ^ d) := by
    rw [Nat.xor_comm y, Nat.xor_assoc, ← Nat.xor_assoc (2 ^ d), Nat.xor_self, Nat.zero_xor]
  rw [h3, ← h1, ← h2]
  rw [pow_succ] at hx' hy'
  exact Nat.xor_lt_two_pow (by omega) (by omega)

theorem log2_bounds {x : Nat} (h0 : x ≠ 0) : 2 ^ Nat.log2 x ≤ x ∧ x < 2 ^ (Nat.log2 x + 1) :=
  (Nat.log2_eq_iff h0).mp rfl

theorem log2_lt {x k : Nat} (h0 : x ≠ 0) (h : x < 2 ^ k) : Nat.log2 x < k := by
  by_contra hge
  have := (log2_bounds h0).1
  have := Nat.pow_le_pow_right (n := 2) (by norm_num) (show k ≤ Nat.log2 x by omega)
  omega

theorem eq_one_of_isUnit {x : Nat} (h : IsUnit (bev (X : (ZMod 2)[X]) x)) : x = 1 := by
  have hd := isUnit_iff_degree_eq_zero.mp h
  have h0 : x ≠ 0 := by rintro rfl; rw [bev_zero] at hd; simp at hd
  have hc := eq_C_of_degree_eq_zero hd
  have hc2 : ∀ c : ZMod 2, c = 0 ∨ c = 1 := by decide
  rcases hc2 ((bev (X : (ZMod 2)[X]) x).coeff 0) with h1 | h1
  · rw [h1, C_0] at hc
    exact absurd (bev_X_inj hc) h0
  · rw [h1, C_1] at hc
    have : bev (X : (ZMod 2)[X]) (x ^^^ 1) = 0 := by
      rw [bev_xor, hc, bev_one, CharTwo.add_self_eq_zero]
    exact Nat.xor_eq_zero_iff.mp (bev_X_inj this)

/-- state of the loop after the first turn -/
structure EInv (n : Nat) (r : K) (x : Nat) (s : Euclid) : Prop where
  a0 : s.ua ≠ 0
  b0 : s.ub ≠ 0
  b1 : s.ub ≠ 1
  al : s.ua < 2 ^ n
  bl : s.ub < 2 ^ n
  co : IsCoprime (bev (X : (ZMod 2)[X]) s.ua) (bev X s.ub)
  da : s.da = Nat.log2 s.ua
  db : s.db = Nat.log2 s.ub
  gal : s.ga < 2 ^ n
  gbl : s.gb < 2 ^ n
  ea : bev r s.ua = bev r x * bev r s.ga
  eb : bev r s.ub = bev r x * bev r s.gb

theorem invLoop_spec (H : BinField n low K r) {F : BinExt} (hn : F.n = n) (hb : n ≤ F.b) (hfb : F.first_bit = 2 ^ (n - 1))
    (hp : F.primitive_poly = low) (hm : F.mask.size = n) (hmk : ∀ i, i < n → gt F.mask i = 2 ^ i) {x : Nat} :
    ∀ fuel s, EInv n r x s → s.da + s.db < fuel →
      ∃ g, F.invLoop fuel s = .ok g ∧ g < 2 ^ n ∧ bev r x * bev r g = 1 := by
  haveI := H.char
  have hpos := H.pos
  intro fuel
  induction fuel with
  | zero => intro s _ h; omega
  | succ fuel ih =>
    intro s hs hf
    unfold invLoop
    by_cases h1 : s.ua = 1
    · rw [if_pos h1]
      refine ⟨_, rfl, hs.gal, ?_⟩
      rw [← hs.ea, h1, bev_one]
    rw [if_neg h1]
    set t := if s.da < s.db then Euclid.mk s.ub s.ua s.gb s.ga s.db s.da else s with ht
    have hti : EInv n r x t ∧ t.db ≤ t.da ∧ t.ua ≠ 1 ∨ EInv n r x t ∧ t.db ≤ t.da ∧ t.ub ≠ 1 := by
      right
      rw [ht]
      split
      · rename_i h
        exact ⟨⟨hs.b0, hs.a0, h1, hs.bl, hs.al, hs.co.symm, hs.db, hs.da, hs.gbl, hs.gal, hs.eb, hs.ea⟩, h.le, h1⟩
      · exact ⟨hs, by omega, hs.b1⟩
    have hti' : EInv n r x t ∧ t.db ≤ t.da := by
      rcases hti with h | h <;> exact ⟨h.1, h.2.1⟩
    have hsum : t.da + t.db = s.da + s.db := by
      rw [ht]; split
      · simp only; omega
      · rfl
    obtain ⟨ti, tle⟩ := hti'
    simp only [hfb, hp]
    have hA := log2_bounds ti.a0
    have hB := log2_bounds ti.b0
    have hda := ti.da
    have hdb := ti.db
    have hlt : t.da < n := by rw [hda]; exact log2_lt ti.a0 ti.al
    have hw1 : 2 ^ t.da ≤ t.ub * 2 ^ (t.da - t.db) := by
      calc 2 ^ t.da = 2 ^ t.db * 2 ^ (t.da - t.db) := by rw [← pow_add]; congr 1; omega
        _ ≤ _ := Nat.mul_le_mul_right _ (by rw [hdb]; exact hB.1)
    have hw2 : t.ub * 2 ^ (t.da - t.db) < 2 ^ (t.da + 1) := by
      calc t.ub * 2 ^ (t.da - t.db) < 2 ^ (t.db + 1) * 2 ^ (t.da - t.db) :=
            Nat.mul_lt_mul_of_pos_right (by rw [hdb]; exact hB.2) (by positivity)
        _ = _ := by rw [← pow_add]; congr 1; omega
    have hw3 : t.ub * 2 ^ (t.da - t.db) < 2 ^ n := lt_of_lt_of_le hw2 (Nat.pow_le_pow_right (by norm_num) hlt)
    rw [shift_left_small hpos hb _ _ hw3]
    have hua : t.ua ^^^ t.ub * 2 ^ (t.da - t.db) < 2 ^ t.da := by
      rw [hda] at hw1 hw2 ⊢
      exact xor_top hA.1 hA.2 hw1 hw2
    have hpolyw : bev (X : (ZMod 2)[X]) (t.ua ^^^ t.ub * 2 ^ (t.da - t.db)) = bev X t.ua + X ^ (t.da - t.db) * bev X t.ub := by
      rw [bev_xor, bev_mul_pow, mul_comm]
    have hco : IsCoprime (bev (X : (ZMod 2)[X]) (t.ua ^^^ t.ub * 2 ^ (t.da - t.db))) (bev X t.ub) := by
      rw [hpolyw, mul_comm (X ^ _)]
      exact ti.co.add_mul_left_left _
    have hne : t.ua ^^^ t.ub * 2 ^ (t.da - t.db) ≠ 0 := by
      intro h
      rw [h, bev_zero] at hco
      exact ti.b1 (eq_one_of_isUnit (isCoprime_zero_left.mp hco))
    have hul : t.ua ^^^ t.ub * 2 ^ (t.da - t.db) < 2 ^ n := lt_trans hua (Nat.pow_lt_pow_right (by norm_num) hlt)
    obtain ⟨g1, g2⟩ := shift_left_spec H hb (t.da - t.db) t.gb ti.gbl
    rw [hn, deg_of_spec hm hmk hne (n - 1) (by omega) (by rw [Nat.sub_add_cancel hpos]; exact hul), ok_bind,
      deg_of_spec hm hmk ti.b0 (n - 1) (by omega) (by rw [Nat.sub_add_cancel hpos]; exact ti.bl), ok_bind]
    refine ih _ ⟨hne, ti.b0, ti.b1, hul, ti.bl, hco, rfl, rfl, Nat.xor_lt_two_pow ti.gal g1, ti.gbl, ?_, ti.eb⟩ ?_
    · simp only
      rw [bev_xor, bev_mul_pow, bev_xor, g2, ti.ea, ti.eb]
      ring
    · simp only
      have := log2_lt hne hua
      omega

theorem inv_ext_gcd_spec (H : BinField n low K r) {F : BinExt} (hn : F.n = n) (hb : n ≤ F.b) (hfb : F.first_bit = 2 ^ (n - 1))
    (hp : F.primitive_poly = low) (hm : F.mask.size = n) (hmk : ∀ i, i < n → gt F.mask i = 2 ^ i) {x : Nat} (h0 : x ≠ 0) (hx : x < 2 ^ n) :
    ∃ g, F.inv_ext_gcd x = .ok g ∧ g < 2 ^ n ∧ bev r x * bev r g = 1 := by
  haveI := H.char
  have hpos := H.pos
  have hlx := log2_lt h0 hx
  have hX := log2_bounds h0
  unfold inv_ext_gcd
  rw [hn, deg_of_spec hm hmk h0 (n - 1) (by omega) (by rw [Nat.sub_add_cancel hpos]; exact hx), ok_bind]
  unfold invLoop
  by_cases h1 : x = 1
  · rw [if_pos h1]
    exact ⟨1, rfl, H.two_pow_pos, by rw [h1, bev_one, mul_one]⟩
  rw [if_neg h1]
  simp only [hfb, hp, if_pos hlx]
  obtain ⟨j, hj⟩ : ∃ j, n - Nat.log2 x = j + 1 := ⟨n - Nat.log2 x - 1, by omega⟩
  have hw1 : 2 ^ n ≤ x * 2 ^ (j + 1) := by
    calc 2 ^ n = 2 ^ Nat.log2 x * 2 ^ (j + 1) := by rw [← pow_add]; congr 1; omega
      _ ≤ _ := Nat.mul_le_mul_right _ hX.1
  have hw2 : x * 2 ^ j < 2 ^ n := by
    calc x * 2 ^ j < 2 ^ (Nat.log2 x + 1) * 2 ^ j := Nat.mul_lt_mul_of_pos_right hX.2 (by positivity)
      _ = _ := by rw [← pow_add]; congr 1; omega
  obtain ⟨k1, k2⟩ := shift_left_spec H hb (j + 1) x hx
  obtain ⟨g1, g2⟩ := shift_left_spec H hb (j + 1) 1 H.two_pow_pos
  have htop := shift_left_top (low := low) hpos hb hw1 hw2
  rw [hj, Nat.zero_xor, Nat.zero_xor]
  set u := shift_left F.b (2 ^ (n - 1)) low x (j + 1) with hu
  have hpolyu : bev (X : (ZMod 2)[X]) u = binPoly n low + bev X x * X ^ (j + 1) := by
    rw [htop, bev_xor, bev_xor, bev_mul_pow, bev_pow]
    unfold binPoly
    ring
  have hco0 : IsCoprime (binPoly n low) (bev X x) := by
    rw [H.irr.coprime_iff_not_dvd]
    intro hd
    have hdeg : (binPoly n low).degree = n := by
      rw [degree_eq_natDegree (binPoly_monic H.low_lt).ne_zero, binPoly_natDegree H.low_lt]
    have := eq_zero_of_dvd_of_degree_lt hd (by rw [hdeg]; exact bev_degree hx)
    exact h0 (bev_X_inj this)
  have hco : IsCoprime (bev (X : (ZMod 2)[X]) u) (bev X x) := by
    rw [hpolyu]
    exact hco0.add_mul_left_left _
  have hne : u ≠ 0 := by
    intro h
    rw [h, bev_zero] at hco
    exact h1 (eq_one_of_isUnit (isCoprime_zero_left.mp hco))
  rw [hn, deg_of_spec hm hmk hne (n - 1) (by omega) (by rw [Nat.sub_add_cancel hpos]; exact k1), ok_bind,
    deg_of_spec hm hmk h0 (n - 1) (by omega) (by rw [Nat.sub_add_cancel hpos]; exact hx), ok_bind]
  refine invLoop_spec H hn hb hfb hp hm hmk _ _ ⟨hne, h0, h1, k1, hx, hco, rfl, rfl, g1, H.two_pow_pos, ?_, ?_⟩ ?_
  · simp only
    rw [k2, g2, bev_one]; ring
  · simp only
    rw [bev_one, mul_one]
  · simp only
    have := log2_lt hne k1
    omega

end BinExt
end Quad
