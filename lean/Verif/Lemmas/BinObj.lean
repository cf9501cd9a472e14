import Mathlib.Tactic.NormNum.Prime
import Verif.Lemmas.BinExt

namespace Quad
namespace BinExt
open Polynomial Arith
variable {n low b : Nat} {K : Type} [Field K] {r : K}

/-! ### the polynomials -/

/-- the polynomial of the field of `2^n` elements without its term `x^n` -/
def lowOf (n : Nat) : Nat :=
  if n = 1 then 1 else if n = 2 then 3 else if n = 3 then 3 else if n = 4 then 3 else if n = 8 then 0x1d
  else if n = 16 then 0x100b else if n = 32 then 0x8d else if n = 64 then 0x1b else 0x87

/-- the sizes the constructor accepts -/
def Size (n : Nat) : Prop := n = 1 ∨ n = 2 ∨ n = 3 ∨ n = 4 ∨ n = 8 ∨ n = 16 ∨ n = 32 ∨ n = 64 ∨ n = 128

theorem dvd_half {s d : Nat} (h : d ∣ 2 ^ (s + 1)) (hne : d ≠ 2 ^ (s + 1)) : d ∣ 2 ^ s := by
  obtain ⟨k, hk, rfl⟩ := (Nat.dvd_prime_pow Nat.prime_two).mp h
  have : k ≠ s + 1 := by rintro rfl; exact hne rfl
  exact Nat.pow_dvd_pow 2 (by omega)

set_option maxRecDepth 100000 in
theorem lowOf_irr (h : Size n) : lowOf n < 2 ^ n ∧ Irreducible (binPoly n (lowOf n)) := by
  rcases h with rfl | rfl | rfl | rfl | rfl | rfl | rfl | rfl | rfl
  · refine ⟨by decide, irreducible_of_degree_eq_one ?_⟩
    have := binPoly_natDegree (n := 1) (low := lowOf 1) (by decide)
    rw [degree_eq_natDegree (binPoly_monic (by decide)).ne_zero, this]; rfl
  · exact ⟨by decide, binPoly_irreducible (m := 1) (u := 1) (by decide) (by decide) (by decide)
      (fun d h h' => dvd_half (s := 0) h h') (by decide) (by decide +kernel) (by decide +kernel)⟩
  · refine ⟨by decide, binPoly_irreducible (m := 1) (u := 3) (by decide) (by decide) (by decide) ?_ (by decide) (by decide +kernel) (by decide +kernel)⟩
    intro d h h'
    rcases (Nat.dvd_prime Nat.prime_three).mp h with rfl | rfl
    · exact dvd_refl _
    · exact absurd rfl h'
  · exact ⟨by decide, binPoly_irreducible (m := 2) (u := 1) (by decide) (by decide) (by decide)
      (fun d h h' => dvd_half (s := 1) h h') (by decide) (by decide +kernel) (by decide +kernel)⟩
  · exact ⟨by decide, binPoly_irreducible (m := 4) (u := 69) (by decide) (by decide) (by decide)
      (fun d h h' => dvd_half (s := 2) h h') (by decide) (by decide +kernel) (by decide +kernel)⟩
  · exact ⟨by decide, binPoly_irreducible (m := 8) (u := 42719) (by decide) (by decide) (by decide)
      (fun d h h' => dvd_half (s := 3) h h') (by decide) (by decide +kernel) (by decide +kernel)⟩
  · exact ⟨by decide, binPoly_irreducible (m := 16) (u := 1569457270) (by decide) (by decide) (by decide)
      (fun d h h' => dvd_half (s := 4) h h') (by decide) (by decide +kernel) (by decide +kernel)⟩
  · exact ⟨by decide, binPoly_irreducible (m := 32) (u := 6037868468195985863) (by decide) (by decide) (by decide)
      (fun d h h' => dvd_half (s := 5) h h') (by decide) (by decide +kernel) (by decide +kernel)⟩
  · exact ⟨by decide, binPoly_irreducible (m := 64) (u := 210407306859290181404817842025723703320) (by decide) (by decide) (by decide)
      (fun d h h' => dvd_half (s := 6) h h') (by decide) (by decide +kernel) (by decide +kernel)⟩

theorem Size.pos (h : Size n) : 0 < n := by
  unfold Size at h; omega

/-- `a^e` modulo `x^n + low`, for `e` of `k` bits -/
def mpw (n low a : Nat) : Nat → Nat → Nat
  | 0, _ => 1
  | k + 1, e =>
    let h := mpw n low a k (e / 2)
    let h2 := mm n low n h h
    if e % 2 = 1 then mm n low n h2 a else h2

theorem mpw_spec (H : BinField n low K r) {a : Nat} (ha : a < 2 ^ n) : ∀ k e, e < 2 ^ k →
    mpw n low a k e < 2 ^ n ∧ bev r (mpw n low a k e) = bev r a ^ e := by
  haveI := H.char
  intro k
  induction k with
  | zero =>
    intro e he
    have : e = 0 := by simpa using he
    subst this
    exact ⟨H.two_pow_pos, by simp [mpw]⟩
  | succ k ih =>
    intro e he
    obtain ⟨h1, h2⟩ := ih (e / 2) (by rw [pow_succ] at he; omega)
    obtain ⟨m1, m2⟩ := mm_spec H.pos H.low_lt H.red n _ _ h1 h1
    unfold mpw
    simp only
    split
    · rename_i ho
      obtain ⟨q1, q2⟩ := mm_spec H.pos H.low_lt H.red n _ a m1 ha
      refine ⟨q1, ?_⟩
      rw [q2, m2, h2, ← pow_add, ← pow_succ]
      congr 1
      omega
    · rename_i ho
      refine ⟨m1, ?_⟩
      rw [m2, h2, ← pow_add]
      congr 1
      omega

theorem bev_two (r : K) : bev r 2 = r := by
  have := bev_two_mul r 1
  rw [bev_one] at this
  exact this.trans (mul_one r)

/-- the order of the root of the polynomial, from its prime divisors -/
theorem order_of_cert (H : BinField n low K r) (hn : 1 < n) {ps : List Nat} (hps : ∀ q, q.Prime → q ∣ 2 ^ n - 1 → q ∈ ps)
    (hc : ∀ q ∈ ps, mpw n low 2 n ((2 ^ n - 1) / q) ≠ 1) : orderOf r = 2 ^ n - 1 := by
  have h2 : 2 < 2 ^ n := lt_of_lt_of_le (by norm_num) (Nat.pow_le_pow_right (n := 2) (by norm_num) hn)
  have hr0 : r ≠ 0 := by
    have := H.ne_zero (a := 2) (by decide) h2
    rwa [bev_two] at this
  refine orderOf_eq_of_pow_and_pow_div_prime (by omega) (H.orderOf_dvd hr0) ?_
  intro q hq hqd he
  have hle : (2 ^ n - 1) / q ≤ 2 ^ n - 1 := Nat.div_le_self _ _
  obtain ⟨m1, m2⟩ := mpw_spec H h2 n ((2 ^ n - 1) / q) (by omega)
  rw [bev_two, he] at m2
  exact hc q (hps q hq hqd) (H.inj m1 H.two_pow_pos (by rw [m2, bev_one]))

theorem root_order (hs : Size n) (h16 : n ≤ 16) (H : BinField n (lowOf n) K r) : orderOf r = 2 ^ n - 1 := by
  haveI := H.char
  have mem : ∀ {q : Nat} {l : List Nat}, q.Prime → (∀ p ∈ l, p.Prime) → q ∣ l.prod → q ∈ l := by
    intro q l hq hl hd
    obtain ⟨p, hp, hqp⟩ := (Prime.dvd_prod_iff hq.prime).mp hd
    rw [(Nat.prime_dvd_prime_iff_eq hq (hl p hp)).mp hqp]
    exact hp
  rcases hs with rfl | rfl | rfl | rfl | rfl | rfl | rfl | rfl | rfl
  · have := H.red
    rw [pow_one, show lowOf 1 = 1 from rfl, bev_one] at this
    rw [this, orderOf_one]; rfl
  · exact order_of_cert H (by decide) (ps := [3]) (fun q h h' => mem h (by simp; norm_num) h') (by decide +kernel)
  · exact order_of_cert H (by decide) (ps := [7]) (fun q h h' => mem h (by simp; norm_num) h') (by decide +kernel)
  · exact order_of_cert H (by decide) (ps := [3, 5]) (fun q h h' => mem h (by simp; norm_num) h') (by decide +kernel)
  · exact order_of_cert H (by decide) (ps := [3, 5, 17]) (fun q h h' => mem h (by simp; norm_num) h') (by decide +kernel)
  · exact order_of_cert H (by decide) (ps := [3, 5, 17, 257]) (fun q h h' => mem h (by simp; norm_num) h') (by decide +kernel)
  all_goals omega

/-! ### the constructor -/

/-- the word sizes and exponents that give a field -/
def Supported (b n : Nat) : Prop := Size n ∧ 8 ∣ b ∧ (n ≤ 16 → n < b) ∧ n ≤ b

theorem init_mask_spec (hb : n ≤ b) {mask : Array Nat} (hm : mask.size = n) :
    ∃ m, init_mask b n mask = .ok m ∧ m.size = n ∧ ∀ i, i < n → gt m i = 2 ^ i := by
  obtain ⟨s, e, h1, h2, h3⟩ := forN_inv (n := n) (s := (mask, 1))
    (f := fun i s => do
      let mask ← wr s.1 i s.2
      pure (mask, wrap b (s.2 * 2)))
    (I := fun k (s : Array Nat × Nat) => s.1.size = n ∧ (k < n → s.2 = 2 ^ k) ∧ ∀ i, i < k → gt s.1 i = 2 ^ i)
    ⟨hm, by simp, by intro i hi; omega⟩ (by
      rintro k ⟨m, v⟩ hk ⟨h1, h2, h3⟩
      simp only at h1 h2 h3 ⊢
      rw [wr_ok (by omega), ok_bind]
      refine ⟨_, rfl, by simp [h1], ?_, ?_⟩
      · intro hk'
        simp only
        unfold wrap
        rw [h2 hk, ← pow_succ, Nat.mod_eq_of_lt (Nat.pow_lt_pow_right (by norm_num) (by omega))]
      · intro i hi
        simp only
        rw [gt_set (by omega), h2 hk]
        split
        · rename_i h; rw [h]
        · exact h3 i (by omega))
  exact ⟨s.1, by unfold init_mask; rw [e]; rfl, h1, h3⟩

/-- a built object: elements are the words below `2^n`, operations those of `K` -/
structure Good (F : BinExt) (n low : Nat) (K : Type) [Field K] (r : K) : Prop where
  H : BinField n low K r
  hn : F.n = n
  hb : n ≤ F.b
  h8 : 8 ∣ F.b
  splitE : F.split = decide (16 < n)
  maskS : F.mask.size = n
  maskE : ∀ i, i < n → gt F.mask i = 2 ^ i
  restr : F.restricted = true → F.b = n
  cardE : F.my_card = if F.restricted then 2 ^ n - 1 else 2 ^ n
  mulS : ∀ {a c : Nat}, a < 2 ^ n → c < 2 ^ n → ∃ m, F.mulR a c = .ok m ∧ m < 2 ^ n ∧ bev r m = bev r a * bev r c
  invS : ∀ {a : Nat}, a ≠ 0 → a < 2 ^ n → ∃ i, F.inv a = .ok i ∧ i < 2 ^ n ∧ bev r i = (bev r a)⁻¹
  divS : ∀ {a c : Nat}, c ≠ 0 → a < 2 ^ n → c < 2 ^ n → ∃ d, F.div a c = .ok d ∧ d < 2 ^ n ∧ bev r d = bev r a / bev r c

/-- logarithm tables that hold the powers of `r` -/
structure Logs (F : BinExt) (n : Nat) (K : Type) [Field K] (r : K) : Prop where
  s1 : F.gflog.size = 2 ^ n
  s2 : F.gfilog.size = 2 ^ n
  c : F.my_card = 2 ^ n
  b : n < F.b
  il : ∀ i, i < 2 ^ n - 1 → gt F.gfilog i < 2 ^ n ∧ bev r (gt F.gfilog i) = r ^ i ∧ gt F.gflog (gt F.gfilog i) = i

theorem Logs.lg {F : BinExt} (L : Logs F n K r) (H : BinField n low K r) (ho : orderOf r = 2 ^ n - 1) {a : Nat} (h0 : a ≠ 0)
    (ha : a < 2 ^ n) : gt F.gflog a < 2 ^ n - 1 ∧ bev r a = r ^ gt F.gflog a := by
  have hp : IsPrimitiveRoot r (2 ^ n - 1) := by rw [← ho]; exact IsPrimitiveRoot.orderOf r
  haveI : NeZero (2 ^ n - 1) := ⟨by have := H.two_pow_pos; omega⟩
  obtain ⟨i, hi, e⟩ := hp.eq_pow_of_pow_eq_one (H.orderOf_dvd (H.ne_zero h0 ha))
  obtain ⟨h1, h2, h3⟩ := L.il i hi
  have : a = gt F.gfilog i := H.inj ha h1 (by rw [h2, e])
  rw [this, h3]
  exact ⟨hi, h2⟩

theorem mulLog_spec {F : BinExt} (L : Logs F n K r) (H : BinField n low K r) (ho : orderOf r = 2 ^ n - 1) {a c : Nat}
    (ha : a < 2 ^ n) (hc : c < 2 ^ n) : ∃ m, F.mulLog a c = .ok m ∧ m < 2 ^ n ∧ bev r m = bev r a * bev r c := by
  have h1 := H.two_pow_pos
  unfold mulLog
  by_cases h : a = 0 ∨ c = 0
  · rw [if_pos h]
    refine ⟨0, rfl, by omega, ?_⟩
    rcases h with rfl | rfl <;> simp
  · rw [if_neg h]
    have ⟨ha0, hc0⟩ : a ≠ 0 ∧ c ≠ 0 := by omega
    obtain ⟨la, ea⟩ := L.lg H ho ha0 ha
    obtain ⟨lc, ec⟩ := L.lg H ho hc0 hc
    rw [rd_gt (by rw [L.s1]; exact ha), ok_bind, rd_gt (by rw [L.s1]; exact hc), ok_bind]
    have hpb : 2 ^ (n + 1) ≤ 2 ^ F.b := Nat.pow_le_pow_right (by norm_num) L.b
    rw [pow_succ] at hpb
    have hw : wrap F.b (gt F.gflog a + gt F.gflog c) = gt F.gflog a + gt F.gflog c := by
      unfold wrap
      rw [Nat.mod_eq_of_lt (by omega)]
    simp only [hw, L.c]
    have hrn : r ^ (2 ^ n - 1) = 1 := by rw [← ho]; exact pow_orderOf_eq_one r
    split
    · rename_i hge
      obtain ⟨q1, q2, _⟩ := L.il (gt F.gflog a + gt F.gflog c - (2 ^ n - 1)) (by omega)
      refine ⟨_, rd_gt (by rw [L.s2]; omega), q1, ?_⟩
      rw [q2, ea, ec, ← pow_add]
      conv_rhs => rw [show gt F.gflog a + gt F.gflog c = (gt F.gflog a + gt F.gflog c - (2 ^ n - 1)) + (2 ^ n - 1) by omega,
        pow_add, hrn, mul_one]
    · rename_i hge
      obtain ⟨q1, q2, _⟩ := L.il (gt F.gflog a + gt F.gflog c) (by omega)
      refine ⟨_, rd_gt (by rw [L.s2]; omega), q1, ?_⟩
      rw [q2, ea, ec, ← pow_add]

theorem divLog_spec {F : BinExt} (L : Logs F n K r) (H : BinField n low K r) (ho : orderOf r = 2 ^ n - 1) {a c : Nat} (hc0 : c ≠ 0)
    (ha : a < 2 ^ n) (hc : c < 2 ^ n) : ∃ m, F.divLog a c = .ok m ∧ m < 2 ^ n ∧ bev r m = bev r a / bev r c := by
  have h1 := H.two_pow_pos
  unfold divLog
  by_cases h : a = 0
  · rw [if_pos h, h]
    exact ⟨0, rfl, by omega, by simp⟩
  · rw [if_neg h, if_neg hc0]
    obtain ⟨la, ea⟩ := L.lg H ho h ha
    obtain ⟨lc, ec⟩ := L.lg H ho hc0 hc
    rw [rd_gt (by rw [L.s1]; exact ha), ok_bind, rd_gt (by rw [L.s1]; exact hc), ok_bind, L.c]
    have hrn : r ^ (2 ^ n - 1) = 1 := by rw [← ho]; exact pow_orderOf_eq_one r
    have hne := H.ne_zero hc0 hc
    split
    · rename_i hge
      obtain ⟨q1, q2, _⟩ := L.il (gt F.gflog a + (2 ^ n - 1) - gt F.gflog c) (by omega)
      refine ⟨_, rd_gt (by rw [L.s2]; omega), q1, ?_⟩
      rw [q2, eq_div_iff hne, ea, ec, ← pow_add,
        show gt F.gflog a + (2 ^ n - 1) - gt F.gflog c + gt F.gflog c = gt F.gflog a + (2 ^ n - 1) by omega, pow_add, hrn, mul_one]
    · rename_i hge
      obtain ⟨q1, q2, _⟩ := L.il (gt F.gflog a - gt F.gflog c) (by omega)
      refine ⟨_, rd_gt (by rw [L.s2]; omega), q1, ?_⟩
      rw [q2, eq_div_iff hne, ea, ec, ← pow_add]
      congr 1
      omega

theorem setup_tables_one (H : BinField 1 low K r) (junk : Nat → Nat → Nat) :
    ∃ t : Array Nat × Array Nat, setup_tables b 2 1 junk = .ok t ∧ t.1.size = 2 ^ 1 ∧ t.2.size = 2 ^ 1 ∧
      (∀ i, i < 2 ^ 1 - 1 → gt t.2 i < 2 ^ 1 ∧ bev r (gt t.2 i) = r ^ i ∧ gt t.1 (gt t.2 i) = i) := by
  unfold setup_tables
  simp only [forN, Nat.reduceSub, ok_bind]
  rw [wr_ok (by simp), ok_bind, wr_ok (by simp), ok_bind]
  refine ⟨_, rfl, by simp, by simp, ?_⟩
  intro i hi
  have : i = 0 := by omega
  subst this
  simp only
  rw [gt_set (by simp), if_pos rfl, gt_set (by simp), if_pos rfl]
  simp

theorem polynomial_of (hs : Supported b n) : polynomial b n = .ok (if n ≤ 16 ∧ 1 < n then 2 ^ n + lowOf n else lowOf n) := by
  obtain ⟨h, h8, h1, h2⟩ := hs
  rcases h with rfl | rfl | rfl | rfl | rfl | rfl | rfl | rfl | rfl <;> try rfl
  · have h3 : 2 ^ 9 ≤ 2 ^ b := Nat.pow_le_pow_right (by norm_num) (h1 (by norm_num))
    have h4 : wrap b 0x11d = 0x11d := by
      unfold wrap
      exact Nat.mod_eq_of_lt (by omega)
    unfold polynomial
    simp only [h4]
    rfl
  have h3 : 2 ^ 17 ≤ 2 ^ b := Nat.pow_le_pow_right (by norm_num) (h1 (by norm_num))
  have h4 : wrap b 0x1100b = 0x1100b := by
    unfold wrap
    exact Nat.mod_eq_of_lt (by omega)
  unfold polynomial
  simp only [h4]
  rfl

theorem mask_sum {m : Array Nat} (h1 : m.size = 128) (h2 : ∀ i, i < 128 → gt m i = 2 ^ i) : m.foldl (· + ·) 0 = 2 ^ 128 - 1 := by
  have : m = Array.ofFn (fun i : Fin 128 => 2 ^ i.1) := by
    apply gt_ext (by simp [h1])
    intro i hi
    rw [h2 i (by omega), gt_ofFn (by omega)]
  rw [this]
  decide +kernel

theorem mk'_spec (hs : Supported b n) (H : BinField n (lowOf n) K r) (junk : Nat → Nat → Nat) (junk3 : Nat → Nat → Nat → Nat) :
    ∃ F, mk' b n junk junk3 = .ok F ∧ F.b = b ∧ Good F n (lowOf n) K r := by
  have hs' := hs
  obtain ⟨hsz, h8, h16, hnb⟩ := hs
  haveI := H.char
  have hpos := H.pos
  obtain ⟨mask, em, m1, m2⟩ := init_mask_spec hnb (mask := Array.ofFn (fun i : Fin n => junk 2 i.1)) (by simp)
  have hpow : (2 : Nat) * 2 ^ (n - 1) = 2 ^ n := by
    obtain ⟨m, rfl⟩ : ∃ m, n = m + 1 := ⟨n - 1, by omega⟩
    rw [Nat.add_sub_cancel]; ring
  unfold mk'
  rw [show cassert (decide (n / 8 ≤ b / 8)) = .ok () by
    unfold cassert; rw [if_pos (by simpa using Nat.div_le_div_right hnb)], ok_bind, polynomial_of hs', ok_bind]
  simp only
  rw [em, ok_bind, rd_gt (by omega), ok_bind, m2 (n - 1) (by omega), hpow]
  by_cases h : n ≤ 16
  · have hlt := h16 h
    have hnr : ¬ n / 8 = b / 8 := by
      obtain ⟨s, rfl⟩ := h8
      unfold Size at hsz
      omega
    have ho := root_order hsz h H
    simp only [hnr, decide_false, Bool.false_eq_true, if_false, if_pos h]
    have hw : wrap b (2 ^ n) = 2 ^ n := Nat.mod_eq_of_lt (Nat.pow_lt_pow_right (by norm_num) hlt)
    rw [hw]
    have htab : ∃ t : Array Nat × Array Nat, setup_tables b (2 ^ n) (if n ≤ 16 ∧ 1 < n then 2 ^ n + lowOf n else lowOf n) junk = .ok t ∧
        t.1.size = 2 ^ n ∧ t.2.size = 2 ^ n ∧
        (∀ i, i < 2 ^ n - 1 → gt t.2 i < 2 ^ n ∧ bev r (gt t.2 i) = r ^ i ∧ gt t.1 (gt t.2 i) = i) := by
      by_cases h1 : 1 < n
      · rw [if_pos ⟨h, h1⟩]
        exact setup_tables_spec H hlt h1 ho junk
      · have : n = 1 := by omega
        subst this
        rw [if_neg (by omega)]
        exact setup_tables_one H junk
    obtain ⟨t, et, t1, t2, t3⟩ := htab
    rw [et, ok_bind]
    refine ⟨_, rfl, rfl, ?_⟩
    generalize hF : BinExt.mk b n (2 ^ n) 0 _ (2 ^ (n - 1)) (n / 4 - 1) t.1 t.2 #[] mask false false = F
    have L : Logs F n K r := by
      subst hF
      exact ⟨t1, t2, rfl, hlt, t3⟩
    have hsp : F.split = false := by subst hF; rfl
    have hdiv : ∀ {a c : Nat}, c ≠ 0 → a < 2 ^ n → c < 2 ^ n → ∃ d, F.div a c = .ok d ∧ d < 2 ^ n ∧ bev r d = bev r a / bev r c := by
      intro a c hc0 ha hc
      unfold div
      rw [hsp]
      exact divLog_spec L H ho hc0 ha hc
    refine ⟨H, by subst hF; rfl, by subst hF; exact hnb, by subst hF; exact h8, by rw [hsp]; simp [h], by subst hF; exact m1,
      by subst hF; exact m2, by subst hF; simp, by subst hF; simp, ?_, ?_, hdiv⟩
    · intro a c ha hc
      unfold mulR
      rw [hsp]
      exact mulLog_spec L H ho ha hc
    · intro a h0 ha
      obtain ⟨d, e1, e2, e3⟩ := hdiv (a := 1) h0 H.two_pow_pos ha
      refine ⟨d, ?_, e2, by rw [e3, bev_one, one_div]⟩
      unfold inv
      rw [hsp]
      exact e1
  · simp only [if_neg h]
    rw [if_neg (fun hh => h hh.1)]
    obtain ⟨G, eG, g1, g2⟩ := setup_split_spec (n := n) (r := r) hpos (m2 := mul2 b (2 ^ (n - 1)) (lowOf n))
      (fun x hx => mul2_spec H hnb hx) (n / 4 - 1) junk3
    rw [eG, ok_bind]
    refine ⟨_, rfl, rfl, ?_⟩
    generalize hmc : (if decide (n / 8 = b / 8) = true then if n ≤ 64 then 2 ^ b - 1 else wrap b (Array.foldl (· + ·) 0 mask)
      else wrap b (2 ^ n)) = mc
    have hd8 : 8 ∣ n := by
      unfold Size at hsz
      omega
    have hres : n / 8 = b / 8 → b = n := by omega
    have hmc' : mc = if decide (n / 8 = b / 8) = true then 2 ^ n - 1 else 2 ^ n := by
      rw [← hmc]
      by_cases hr : n / 8 = b / 8
      · have hbn := hres hr
        simp only [hr, decide_true, if_true]
        by_cases h64 : n ≤ 64
        · rw [if_pos h64, hbn]
        · rw [if_neg h64]
          have : n = 128 := by unfold Size at hsz; omega
          subst this
          rw [mask_sum m1 m2, hbn]
          decide
      · simp only [hr, decide_false, Bool.false_eq_true, if_false]
        exact Nat.mod_eq_of_lt (Nat.pow_lt_pow_right (by norm_num) (by
          refine lt_of_le_of_ne hnb ?_
          rintro rfl
          exact hr rfl))
    generalize hF : BinExt.mk b n mc (n / 8) (lowOf n) (2 ^ (n - 1)) (n / 4 - 1) #[] #[] G mask (decide (n / 8 = b / 8)) true = F
    have hsp : F.split = true := by subst hF; rfl
    have hmul : ∀ {a c : Nat}, a < 2 ^ n → c < 2 ^ n → ∃ m, F.mulR a c = .ok m ∧ m < 2 ^ n ∧ bev r m = bev r a * bev r c := by
      intro a c ha hc
      unfold mulR
      rw [hsp]
      subst hF
      exact mulSplit_spec (n := n) rfl hd8 g1 g2 ha hc
    have hinv : ∀ {a : Nat}, a ≠ 0 → a < 2 ^ n → ∃ i, F.inv_ext_gcd a = .ok i ∧ i < 2 ^ n ∧ bev r a * bev r i = 1 := by
      intro a h0 ha
      subst hF
      exact inv_ext_gcd_spec H rfl hnb rfl rfl m1 m2 h0 ha
    refine ⟨H, by subst hF; rfl, by subst hF; exact hnb, by subst hF; exact h8, by rw [hsp]; simp; omega, by subst hF; exact m1,
      by subst hF; exact m2, ?_, by subst hF; exact hmc', hmul, ?_, ?_⟩
    · intro hr
      subst hF
      exact hres (by simpa using hr)
    · intro a h0 ha
      obtain ⟨i, e1, e2, e3⟩ := hinv h0 ha
      refine ⟨i, ?_, e2, eq_inv_of_mul_eq_one_right e3⟩
      unfold inv
      rw [hsp]
      exact e1
    · intro a c h0 ha hc
      obtain ⟨i, e1, e2, e3⟩ := hinv h0 hc
      obtain ⟨m, q1, q2, q3⟩ := hmul ha e2
      refine ⟨m, ?_, q2, by rw [q3, eq_inv_of_mul_eq_one_right e3, div_eq_mul_inv]⟩
      unfold div
      rw [hsp]
      show F.divByInv a c = _
      unfold divByInv
      rw [e1, ok_bind, q1]

namespace Good
variable {F : BinExt} (G : Good F n low K r)
include G

theorem cardM1_eq : F.cardM1 = 2 ^ n - 1 := by
  unfold cardM1
  rw [G.cardE]
  split <;> rfl

theorem check_iff (a : Nat) : F.check a = true ↔ a < 2 ^ n := by
  have := G.H.two_pow_pos
  unfold check
  rw [G.cardE]
  split <;> rw [decide_eq_true_iff] <;> omega

theorem mul_spec {a c : Nat} (ha : a < 2 ^ n) (hc : c < 2 ^ n) :
    F.mulR a c = .ok (F.mul a c) ∧ F.mul a c < 2 ^ n ∧ bev r (F.mul a c) = bev r a * bev r c := by
  obtain ⟨m, e, h1, h2⟩ := G.mulS ha hc
  have : F.mul a c = m := by unfold mul; rw [e]; rfl
  rw [this]
  exact ⟨e, h1, h2⟩

theorem exp_spec {a : Nat} (ha : a < 2 ^ n) (e : Nat) : F.exp a e < 2 ^ n ∧ bev r (F.exp a e) = bev r a ^ e :=
  expQuick_sim (V := fun a => a < 2 ^ n) (φ := fun a => bev r a) ⟨G.H.two_pow_pos, bev_one r⟩
    (fun ha hc => (G.mul_spec ha hc).2) ha e

theorem expC_spec {a : Nat} (ha : a < 2 ^ n) (e : Nat) : expQuickC F.mulR a e = .ok (F.exp a e) :=
  expQuickC_eq (V := fun a => a < 2 ^ n) G.H.two_pow_pos (fun ha hc => ⟨(G.mul_spec ha hc).1, (G.mul_spec ha hc).2.1⟩) ha e

theorem exp_eq_one_iff {a : Nat} (ha : a < 2 ^ n) (e : Nat) : F.exp a e = 1 ↔ bev r a ^ e = 1 := by
  obtain ⟨h1, h2⟩ := G.exp_spec ha e
  rw [← h2]
  constructor
  · intro h; rw [h, bev_one]
  · intro h; exact G.H.inj h1 G.H.two_pow_pos (by rw [h, bev_one])

theorem logLoop_spec {a y : Nat} (ha : a < 2 ^ n) (hy : y < 2 ^ n) : ∀ k e t, t < 2 ^ n → bev r t = bev r a ^ e →
    (∃ l, F.logLoop a y k e t = .ok l ∧ e ≤ l ∧ l < e + k ∧ bev r a ^ l = bev r y ∧ ∀ j, e ≤ j → j < l → bev r a ^ j ≠ bev r y) ∨
    (F.logLoop a y k e t = .error (.throws .noSolution) ∧ ∀ j, e ≤ j → j < e + k → bev r a ^ j ≠ bev r y) := by
  intro k
  induction k with
  | zero => intro e t _ _; right; exact ⟨rfl, by intros; omega⟩
  | succ k ih =>
    intro e t ht he
    unfold logLoop
    by_cases h : t = y
    · rw [if_pos h]
      left
      exact ⟨e, rfl, le_refl _, by omega, by rw [← he, h], by intros; omega⟩
    · rw [if_neg h]
      have hne : bev r a ^ e ≠ bev r y := by
        rw [← he]
        exact fun hh => h (G.H.inj ht hy hh)
      obtain ⟨_, m1, m2⟩ := G.mul_spec ht ha
      rcases ih (e + 1) (F.mul t a) m1 (by rw [m2, he, pow_succ]) with ⟨l, h1, h2, h3, h4, h5⟩ | ⟨h1, h2⟩
      · left
        refine ⟨l, h1, by omega, by omega, h4, ?_⟩
        intro j hj1 hj2
        by_cases hje : j = e
        · rw [hje]; exact hne
        · exact h5 j (by omega) hj2
      · right
        refine ⟨h1, ?_⟩
        intro j hj1 hj2
        by_cases hje : j = e
        · rw [hje]; exact hne
        · exact h2 j (by omega) (by omega)

/-- `log` returns the least exponent, or throws when there is none -/
theorem log_spec {a y : Nat} (ha : a < 2 ^ n) (hy : y < 2 ^ n) :
    (∃ l, F.log a y = .ok l ∧ (a ≠ 0 → l < 2 ^ n - 1) ∧ bev r a ^ l = bev r y ∧ ∀ j, j < l → bev r a ^ j ≠ bev r y) ∨
    (F.log a y = .error (.throws .noSolution) ∧ ∀ j, bev r a ^ j ≠ bev r y) := by
  have h1 := G.H.two_pow_pos
  unfold log
  by_cases h : y = 1
  · rw [if_pos h, h]
    left
    exact ⟨0, rfl, by omega, by rw [pow_zero, bev_one], by intros; omega⟩
  · rw [if_neg h]
    have hmc1 : 1 ≤ F.my_card - 1 := by
      rw [G.cardE]
      split
      · rename_i hr
        have hbn := G.restr hr
        have hnp := G.H.pos
        obtain ⟨k, hk⟩ := G.h8
        have : 2 ^ 8 ≤ 2 ^ n := Nat.pow_le_pow_right (by norm_num) (by omega)
        omega
      · omega
    have h0 : bev r a ^ 0 ≠ bev r y := by
      rw [pow_zero]
      intro hh
      exact h (G.H.inj h1 hy (by rw [bev_one, hh])).symm
    have hmc : 2 ^ n - 2 ≤ F.my_card - 1 ∧ F.my_card - 1 ≤ 2 ^ n - 1 := by
      rw [G.cardE]; split <;> omega
    -- exponents beyond the order of the group bring nothing
    have hred : ∀ j, bev r a ^ j = bev r y → ∃ i, 1 ≤ i ∧ i ≤ F.my_card - 1 ∧ (a ≠ 0 → i < 2 ^ n - 1) ∧ bev r a ^ i = bev r y := by
      intro j hj
      by_cases ha0 : a = 0
      · subst ha0
        rw [bev_zero] at hj h0
        rcases Nat.eq_zero_or_pos j with hj0 | hj0
        · subst hj0; exact absurd hj h0
        · rw [zero_pow (by omega)] at hj
          exact ⟨1, le_refl _, hmc1, fun h => absurd rfl h, by rw [bev_zero, ← hj]; simp⟩
      · have hz := G.H.orderOf_dvd (G.H.ne_zero ha0 ha)
        have hlt : j % (2 ^ n - 1) < 2 ^ n - 1 := Nat.mod_lt _ (by omega)
        refine ⟨j % (2 ^ n - 1), ?_, by omega, fun _ => hlt, ?_⟩
        · rw [Nat.one_le_iff_ne_zero]
          intro hz0
          apply h0
          rw [← hj, ← Nat.div_add_mod j (2 ^ n - 1), hz0, add_zero, pow_mul, hz, one_pow, pow_zero]
        · rw [← hj]
          conv_rhs => rw [← Nat.div_add_mod j (2 ^ n - 1), pow_add, pow_mul, hz, one_pow, one_mul]
    rcases G.logLoop_spec ha hy (F.my_card - 1) 1 a ha (by rw [pow_one]) with ⟨l, e, l1, l2, l3, l4⟩ | ⟨e, l1⟩
    · left
      have hl : ∀ j, j < l → bev r a ^ j ≠ bev r y := by
        intro j hj
        rcases Nat.eq_zero_or_pos j with h | h
        · rw [h]; exact h0
        · exact l4 j h hj
      refine ⟨l, e, ?_, l3, hl⟩
      intro ha0
      obtain ⟨i, i1, _, i2, i3⟩ := hred l l3
      by_contra hge
      exact hl i (by have := i2 ha0; omega) i3
    · right
      refine ⟨e, ?_⟩
      intro j hj
      obtain ⟨i, i1, i2, _, i3⟩ := hred j hj
      exact l1 i i1 (by omega) i3

theorem noDivisor_iff {fs : List (Nat × Nat)} (hf : IsFactorList fs (2 ^ n - 1)) {x : Nat} (hx : x < 2 ^ n) (h0 : x ≠ 0)
    (h1 : x ≠ 1) :
    RingModN.noDivisorGivesOne F.exp x (get_proper_divisors_from (2 ^ n - 1) (fs.map Prod.fst)) = true ↔ orderOf (bev r x) = 2 ^ n - 1 := by
  have hpos := G.H.two_pow_pos
  have hpow := G.H.orderOf_dvd (G.H.ne_zero h0 hx)
  unfold RingModN.noDivisorGivesOne
  simp only [get_proper_divisors_from, List.all_eq_true, List.mem_map, List.mem_filter,
    decide_eq_true_eq, bne_iff_ne, ne_eq]
  constructor
  · intro hall
    refine orderOf_eq_of_pow_and_pow_div_prime (by omega) hpow ?_
    intro q hq hqd he
    by_cases hqe : q = 2 ^ n - 1
    · rw [← hqe, Nat.div_self hq.pos, pow_one] at he
      exact h1 (G.H.inj hx hpos (by rw [he, bev_one]))
    · have hqlt : q < 2 ^ n - 1 := lt_of_le_of_ne (Nat.le_of_dvd (by omega) hqd) hqe
      obtain ⟨pe, hm, hpe⟩ := hf.mem hq hqd
      exact hall _ ⟨q, ⟨⟨pe, hm, hpe⟩, hqlt⟩, rfl⟩ ((G.exp_eq_one_iff hx _).2 he)
  · rintro hord d ⟨q, ⟨⟨pe, hm, rfl⟩, hlt⟩, rfl⟩ he
    rw [G.exp_eq_one_iff hx] at he
    have hq := (hf.1 pe hm).1
    have hd := orderOf_dvd_of_pow_eq_one he
    rw [hord] at hd
    have hpos' : 0 < (2 ^ n - 1) / pe.1 := Nat.div_pos (by omega) hq.pos
    have := Nat.le_of_dvd hpos' hd
    have := Nat.div_lt_self (n := 2 ^ n - 1) (by omega) hq.one_lt
    omega

/-- `init` succeeds and finds a generator -/
theorem init_spec : ∃ O, F.init = .ok O ∧ O.F = F ∧ IsFactorList O.factors (2 ^ n - 1) ∧
      O.all_primes_factors = get_prime_factors_from O.factors ∧
      O.root < 2 ^ n ∧ orderOf (bev r O.root) = 2 ^ n - 1 := by
  have hpos := G.H.two_pow_pos
  have hn := G.H.pos
  have hb := G.hb
  have hpb : 2 ^ n ≤ 2 ^ F.b := Nat.pow_le_pow_right (by norm_num) hb
  obtain ⟨k, hk⟩ := G.h8
  obtain ⟨fs, e, hf⟩ := factor_prime_spec (b := F.b) (nb := 2 ^ n - 1) (by omega) (by omega) (by omega) (by omega)
  have hroot : ∃ w, F.find_primitive_root (get_proper_divisors_from (2 ^ n - 1) (fs.map Prod.fst)) = .ok w ∧
      w < 2 ^ n ∧ orderOf (bev r w) = 2 ^ n - 1 := by
    unfold find_primitive_root
    simp only [G.cardM1_eq]
    by_cases h1 : 2 ^ n - 1 = 1
    · rw [if_pos h1]
      exact ⟨1, rfl, hpos, by rw [bev_one, orderOf_one, h1]⟩
    · rw [if_neg h1]
      obtain ⟨m, hm0, hmlt, hmord⟩ := G.H.exists_primitive
      have hm1 : m ≠ 1 := by
        rintro rfl
        rw [bev_one, orderOf_one] at hmord
        omega
      obtain ⟨a1, a2, a3⟩ := RingModN.rootLoop_spec F.exp (get_proper_divisors_from (2 ^ n - 1) (fs.map Prod.fst))
        (2 ^ n - 1 - 1) 2 ⟨m, by omega, by omega, (G.noDivisor_iff hf hmlt (by omega) hm1).2 hmord⟩
      rw [if_neg (by omega)]
      exact ⟨_, rfl, by omega, (G.noDivisor_iff hf (by omega) (by omega) (by omega)).1 a3⟩
  obtain ⟨w, ew, w1, w2⟩ := hroot
  exact ⟨_, by simp only [BinExt.init, G.cardM1_eq, e, ok_bind, ew]; rfl, rfl, hf, rfl, w1, w2⟩

theorem deg_of_zero : ∀ d, d < n → F.deg_of 0 d = ub := by
  intro d
  induction d with
  | zero =>
    intro hd
    unfold deg_of
    rw [rd_gt (by rw [G.maskS]; exact hd), ok_bind, Nat.and_zero, if_pos rfl]
  | succ d ih =>
    intro hd
    unfold deg_of
    rw [rd_gt (by rw [G.maskS]; exact hd), ok_bind, Nat.and_zero, if_pos rfl, ih (by omega)]

theorem inv_zero (h : 16 < n) : F.inv 0 = ub := by
  unfold inv
  rw [G.splitE, decide_eq_true h]
  simp only [if_true]
  unfold inv_ext_gcd
  rw [G.hn, G.deg_of_zero (n - 1) (by omega)]
  rfl

theorem div_zero (h : 16 < n) (a : Nat) : F.div a 0 = ub := by
  have := G.inv_zero h
  unfold inv at this
  unfold div divByInv
  rw [G.splitE, decide_eq_true h] at this ⊢
  simp only [if_true] at this ⊢
  rw [this]
  rfl

theorem div_zero_log (h : n ≤ 16) {a : Nat} (h0 : a ≠ 0) : F.div a 0 = .ok (2 ^ F.b - 1) := by
  unfold div divLog
  rw [G.splitE, decide_eq_false (by omega)]
  simp only [Bool.false_eq_true, if_false]
  rw [if_neg h0, if_pos trivial]

end Good

/-- an initialised field object -/
structure IsBinField (O : Obj) (n low : Nat) (K : Type) [Field K] (r : K) : Prop where
  good : Good O.F n low K r
  factors : IsFactorList O.factors (2 ^ n - 1)
  primes : O.all_primes_factors = get_prime_factors_from O.factors
  root_lt : O.root < 2 ^ n
  root_ord : orderOf (bev r O.root) = 2 ^ n - 1

namespace IsBinField
variable {O : Obj}

theorem get_nth_root_spec (B : IsBinField O n low K r) (m : Nat) :
    ∃ w, O.get_nth_root m = .ok w ∧ w < 2 ^ n ∧ IsPrimitiveRoot (bev r w) (Nat.gcd m (2 ^ n - 1)) := by
  have hpos := B.good.H.two_pow_pos
  have hd : Nat.gcd m (2 ^ n - 1) ∣ 2 ^ n - 1 := Nat.gcd_dvd_right _ _
  have hg : 0 < Nat.gcd m (2 ^ n - 1) := Nat.gcd_pos_of_pos_right _ (by omega)
  obtain ⟨e1, e2⟩ := B.good.exp_spec B.root_lt ((2 ^ n - 1) / Nat.gcd m (2 ^ n - 1))
  refine ⟨O.F.exp O.root ((2 ^ n - 1) / Nat.gcd m (2 ^ n - 1)), ?_, e1, ?_⟩
  · unfold Obj.get_nth_root
    rw [gcd_eq]
    simp only [ok_bind, B.good.cardM1_eq]
    rw [if_neg (by omega)]; rfl
  · rw [e2]
    have hprim : IsPrimitiveRoot (bev r O.root) (2 ^ n - 1) := by
      rw [← B.root_ord]; exact IsPrimitiveRoot.orderOf _
    exact IsPrimitiveRoot.pow (by omega) hprim (Nat.div_mul_cancel hd).symm

/-- a binary field object computes in `K` -/
def sim (B : IsBinField O n low K r) : O.gf.Sim K where
  V := fun a => a < 2 ^ n
  φ := fun a => bev r a
  U := fun a => bev r a ≠ 0
  zero := ⟨by positivity, bev_zero r⟩
  one := ⟨B.good.H.two_pow_pos, bev_one r⟩
  add := by
    intro a c ha hc
    haveI := B.good.H.char
    exact ⟨Nat.xor_lt_two_pow ha hc, bev_xor r a c⟩
  sub := by
    intro a c ha hc
    haveI := B.good.H.char
    refine ⟨Nat.xor_lt_two_pow ha hc, ?_⟩
    rw [CharTwo.sub_eq_add]; exact bev_xor r a c
  mul := fun ha hc => (B.good.mul_spec ha hc).2
  neg := by
    intro a ha
    haveI := B.good.H.char
    have : O.gf.neg a = a := Nat.zero_xor a
    rw [this]
    exact ⟨ha, (CharTwo.neg_eq _).symm⟩
  inv := by
    intro a ha hu
    exact B.good.invS (by rintro rfl; exact hu (bev_zero r)) ha
  div := by
    intro a c ha hc hu
    exact B.good.divS (by rintro rfl; exact hu (bev_zero r)) ha hc
  exp' := fun _ {a e} ha => B.good.exp_spec ha e
  omega := fun {a e} ha _ => B.good.exp_spec ha e

instance (O : BinExt.Obj) : O.gf.Plain := ⟨rfl⟩

theorem sim_inj (B : IsBinField O n low K r) : B.sim.Inj := fun ha hc h => B.good.H.inj ha hc h

end IsBinField

end BinExt
end Quad
