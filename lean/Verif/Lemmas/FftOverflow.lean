import Verif.Lemmas.FftGt

/-!
# Lengths whose index products overflow an `int`
-/

namespace Quad
open Finset

/-- a loop each of whose turns keeps an invariant or is undefined, and one of whose turns is undefined, is undefined -/
theorem forN_or_ub {σ : Type} {f : Nat → σ → Res σ} (I : σ → Prop) (hs : ∀ k s, I s → (∃ s', f k s = .ok s' ∧ I s') ∨ f k s = ub) :
    ∀ {n : Nat} {s : σ}, I s → (∃ s', forN n s f = .ok s' ∧ I s') ∨ forN n s f = ub := by
  intro n
  induction n with
  | zero => exact fun h0 => .inl ⟨_, rfl, h0⟩
  | succ n ih =>
    intro s h0
    show (∃ s', (forN n s f >>= fun s => f n s) = .ok s' ∧ I s') ∨ (forN n s f >>= fun s => f n s) = ub
    rcases ih h0 with ⟨s', e, h⟩ | e
    · rw [e, ok_bind]; exact hs n s' h
    · rw [e]; exact .inr rfl

theorem forN_ub_last {σ : Type} {f : Nat → σ → Res σ} (I : σ → Prop) (hs : ∀ k s, k < n + 1 → I s → (∃ s', f k s = .ok s' ∧ I s') ∨ f k s = ub)
    {s : σ} (h0 : I s) (hl : ∀ s, I s → f n s = ub) : forN (n + 1) s f = ub := by
  show (forN n s f >>= fun s => f n s) = ub
  have hs' : ∀ k s, I s → (∃ s', (if k < n + 1 then f k s else ub) = .ok s' ∧ I s') ∨ (if k < n + 1 then f k s else ub) = ub := by
    intro k s h
    by_cases hk : k < n + 1
    · rw [if_pos hk]; exact hs k s hk h
    · rw [if_neg hk]; exact .inr rfl
  have hcongr : ∀ m, m ≤ n + 1 → forN m s (fun k s => if k < n + 1 then f k s else ub) = forN m s f := by
    intro m
    induction m with
    | zero => exact fun _ => rfl
    | succ m ih =>
      intro hm
      show (forN m s _ >>= fun s => _) = (forN m s f >>= fun s => f m s)
      rw [ih (by omega)]
      simp only [if_pos (show m < n + 1 by omega)]
  rw [← hcongr n (by omega)]
  rcases forN_or_ub I hs' (n := n) h0 with ⟨s', e, h⟩ | e
  · rw [e, ok_bind]; exact hl s' h
  · rw [e]; rfl

variable {F : GF}

theorem compute_W_overflow {n : Nat} (hn : 2 ^ 31 ≤ (n - 1) * (n - 1)) (mem : Nat → Nat) (w : Nat) :
    Naive.compute_W F n (Mat.mk' n n mem) w = ub := by
  obtain ⟨m, rfl⟩ : ∃ m, n = m + 1 := ⟨n - 1, by
    rcases Nat.eq_zero_or_pos n with rfl | h
    · simp at hn
    · omega⟩
  rw [Nat.add_sub_cancel] at hn
  unfold Naive.compute_W
  have inner : ∀ (i : Nat), i < m + 1 → ∀ (j : Nat) (W : Mat), j < m + 1 → (∃ f, Mat.Is W (m + 1) (m + 1) f) →
      (∃ W', (if i * j < 2 ^ 31 then W.set i j (F.exp w ((i * j) % (m + 1))) else ub) = .ok W' ∧ ∃ f, Mat.Is W' (m + 1) (m + 1) f) ∨
        (if i * j < 2 ^ 31 then W.set i j (F.exp w ((i * j) % (m + 1))) else ub) = ub := by
    rintro i hi j W hj ⟨f, h⟩
    by_cases hlt : i * j < 2 ^ 31
    · rw [if_pos hlt]
      obtain ⟨W1, e1, i1⟩ := h.set hi hj (F.exp w ((i * j) % (m + 1)))
      exact .inl ⟨W1, e1, _, i1⟩
    · rw [if_neg hlt]; exact .inr rfl
  refine forN_ub_last (fun W => ∃ f, Mat.Is W (m + 1) (m + 1) f) ?_ ⟨_, Mat.mk'_is _ _ mem⟩ ?_
  · intro i W hi hW
    by_cases hb : i * m < 2 ^ 31
    · left
      obtain ⟨W', e, h⟩ := forN_inv (n := m + 1) (s := W)
        (f := fun j W => if i * j < 2 ^ 31 then W.set i j (F.exp w ((i * j) % (m + 1))) else ub)
        (I := fun _ W => ∃ f, Mat.Is W (m + 1) (m + 1) f) hW (by
          rintro j W hj ⟨f, h⟩
          rw [if_pos (lt_of_le_of_lt (Nat.mul_le_mul_left i (by omega : j ≤ m)) hb)]
          obtain ⟨W1, e1, i1⟩ := h.set hi hj (F.exp w ((i * j) % (m + 1)))
          exact ⟨W1, e1, _, i1⟩)
      exact ⟨W', e, h⟩
    · right
      exact forN_ub_last (fun W => ∃ f, Mat.Is W (m + 1) (m + 1) f) (fun j W hj => inner i hi j W hj) hW
        (fun W _ => by rw [if_neg hb])
  · intro W hW
    exact forN_ub_last (fun W => ∃ f, Mat.Is W (m + 1) (m + 1) f) (fun j W hj => inner m (by omega) j W hj) hW
      (fun W _ => by rw [if_neg (by omega)])

variable [F.Plain] {K : Type} [Field K] {S : F.Sim K} {b q : Nat}

theorem naive_overflow (D : DftField F b q S) {n w pkt : Nat} (hlt : n < 2 ^ 31) (hn : n ∣ q - 1) (hsq : 2 ^ 31 ≤ (n - 1) * (n - 1)) (hw : S.V w)
    (hone : S.φ w ^ n = 1) (mem : Nat → Nat) : Naive.mk' F n w pkt mem = ub := by
  obtain ⟨v, ev, _⟩ := D.invN n hn
  obtain ⟨iw, ei, _⟩ := D.inv hw (D.dvd_pos hn) hone
  unfold Naive.mk'
  rw [intLen_of hlt, ok_bind, ev, ok_bind, ei, ok_bind, compute_W_overflow hsq]
  rfl

theorem outer_overflow (D : DftField F b q S) {n w : Nat} (hlt : n < 2 ^ 31) (hn : n ∣ q - 1) (hsq : 2 ^ 31 ≤ (n - 1) * (n - 1)) (hw : S.V w)
    (hone : S.φ w ^ n = 1) (mem : Nat → Nat) : CooleyTukey.outer F n w mem = ub := by
  unfold CooleyTukey.outer
  rw [if_neg (by rintro rfl; norm_num at hsq), naive_overflow D hlt hn hsq hw hone]

theorem build_overflow (D : DftField F b q S) (mem : Nat → Nat) : ∀ (fs : List Nat) (first : Bool) (n w : Nat), fs.prod = n →
    (∀ f ∈ fs, 1 < f) → (∃ f ∈ fs, 2 ^ 31 ≤ (f - 1) * (f - 1)) → n < 2 ^ 31 → n ∣ q - 1 → S.V w → IsPrimitiveRoot (S.φ w) n →
    CooleyTukey.build F mem first fs n w = ub := by
  intro fs
  induction fs with
  | nil => rintro _ _ _ _ _ ⟨f, hf, _⟩; simp at hf
  | cons n1 fs ih =>
    intro first n w hprod hf hbig hlt hn hw hp
    have hn0 := D.dvd_pos hn
    rw [List.prod_cons] at hprod
    have h1 := hf n1 (by simp)
    have hdiv : n / n1 = fs.prod := by rw [← hprod]; exact Nat.mul_div_cancel_left _ (by omega)
    obtain ⟨v, ev, _⟩ := D.invN n hn
    obtain ⟨iw, ei, _⟩ := D.inv hw hn0 hp.pow_eq_one
    have hw1 := S.exp (e := fs.prod) hw
    have hp1 : IsPrimitiveRoot (S.φ w ^ fs.prod) n1 := hp.pow (by omega) (by rw [← hprod, mul_comm])
    simp only [CooleyTukey.build, intLen_of hlt, ev, ok_bind, ei]
    rw [if_neg (by omega), hdiv]
    have h0 : 0 < fs.prod := by
      rcases Nat.eq_zero_or_pos fs.prod with h | h
      · rw [h, mul_zero] at hprod; omega
      · exact h
    by_cases hsq : (n1 - 1) * (n1 - 1) < 2 ^ 31
    · obtain ⟨o, eo, ho⟩ := outer_ft D (n := n1) (w := F.exp w fs.prod) ((Dvd.intro _ hprod).trans hn) hsq hw1.1 (by rw [hw1.2]; exact hp1) mem
      have hrest : ∃ f ∈ fs, 2 ^ 31 ≤ (f - 1) * (f - 1) := by
        obtain ⟨f, hm, hb⟩ := hbig
        rcases List.mem_cons.mp hm with rfl | hm
        · omega
        · exact ⟨f, hm, hb⟩
      have hgt : fs.prod > 1 := by
        obtain ⟨f, hm, _⟩ := hrest
        exact lt_of_lt_of_le (hf f (by simp [hm])) (Nat.le_of_dvd h0 (List.dvd_prod hm))
      have hw2 := S.exp (e := n1) hw
      have hp2 : IsPrimitiveRoot (S.φ w ^ n1) fs.prod := hp.pow (by omega) hprod.symm
      have eT := ih false fs.prod (F.exp w n1) rfl (fun f hf' => hf f (by simp [hf'])) hrest (by nlinarith)
        ((Dvd.intro_left _ hprod).trans hn) hw2.1 (by rw [hw2.2]; exact hp2)
      simp only [eo, ok_bind]
      rw [if_pos hgt]
      simp only [eT]
      rfl
    · have eo := outer_overflow D (n := n1) (w := F.exp w fs.prod) (by nlinarith [h0]) ((Dvd.intro _ hprod).trans hn) (by omega) hw1.1
        (by rw [hw1.2]; exact hp1.pow_eq_one) mem
      simp only [eo]
      rfl

theorem ct_overflow (D : DftField F b q S) (mem : Nat → Nat) {n : Nat} (hlt : n < 2 ^ 31) (hn : n ∣ q - 1)
    (hsq : ∃ p, p.Prime ∧ p ∣ n ∧ 2 ^ 31 ≤ (p - 1) * (p - 1)) : CooleyTukey.mk' F b n mem = ub := by
  have hn0 := D.dvd_pos hn
  have hnb : n < 2 ^ b := by
    have := Nat.le_of_dvd (by have := D.two; omega) hn
    have := D.room
    have := D.two
    omega
  obtain ⟨w, ew, w1, w2⟩ := D.root n hn
  obtain ⟨fs, ef, f1, f2, f3⟩ := Arith.get_prime_factors_spec D.even D.pos hnb (by omega)
  obtain ⟨p, hp, hd, hb⟩ := hsq
  have hm : p ∈ fs := by
    rw [← f3] at hd
    obtain ⟨a, ha, hpa⟩ := (Prime.dvd_prod_iff hp.prime).1 hd
    rw [(Nat.prime_dvd_prime_iff_eq hp (f1 a ha)).1 hpa]
    exact ha
  unfold CooleyTukey.mk'
  rw [ef, ok_bind, ew, ok_bind]
  exact build_overflow D mem fs true n w f3 (fun f hf => (f1 f hf).one_lt) ⟨p, hm, hb⟩ hlt hn w1 w2

theorem gt_overflow (D : DftField F b q S) (mem : Nat → Nat) {n : Nat} (hlt : n < 2 ^ 31) (hn : n ∣ q - 1)
    (hsq : ∃ p e, p.Prime ∧ p ^ e ∣ n ∧ 2 ^ 31 ≤ (p ^ e - 1) * (p ^ e - 1)) : GoodThomas.mk' F b n mem = ub := by
  have hn0 := D.dvd_pos hn
  have hnb : n < 2 ^ b := by
    have := Nat.le_of_dvd (by have := D.two; omega) hn
    have := D.room
    have := D.two
    omega
  obtain ⟨v, ev, _⟩ := D.invN n hn
  obtain ⟨w, ew, w1, w2⟩ := D.root n hn
  obtain ⟨l, hl, el⟩ := coprime_factors_list D.even D.pos hnb hn0
  obtain ⟨p, e, hp, hd, hb⟩ := hsq
  have hbig : ∃ f ∈ l.map (fun pe => pe.1 ^ pe.2), 2 ^ 31 ≤ (f - 1) * (f - 1) := by
    have he : e ≠ 0 := by rintro rfl; simp at hb
    obtain ⟨⟨p', e'⟩, hm, hq⟩ := hl.mem hp ((dvd_pow_self _ he).trans hd)
    simp only at hq
    subst hq
    refine ⟨p' ^ e', List.mem_map.mpr ⟨_, hm, rfl⟩, hb.trans ?_⟩
    have hle : p' ^ e ≤ p' ^ e' := by
      refine Nat.pow_le_pow_right hp.pos ?_
      have := (hp.pow_dvd_iff_le_factorization (by omega)).1 hd
      rw [hl.factorization hm] at this
      exact this
    exact Nat.mul_le_mul (by omega) (by omega)
  obtain ⟨l1, l2, l3⟩ := hl
  have hone : ∀ f ∈ l.map (fun pe => pe.1 ^ pe.2), 1 < f := by
    intro f hf
    obtain ⟨pe, hm, rfl⟩ := List.mem_map.mp hf
    exact Nat.one_lt_pow (by have := (l1 pe hm).2; omega) (l1 pe hm).1.one_lt
  unfold GoodThomas.mk'
  simp only [intLen_of hlt, ev, ok_bind, el, ew]
  generalize l.map (fun pe => pe.1 ^ pe.2) = gs at *
  cases gs with
  | nil => rfl
  | cons n1 fs =>
    rw [List.prod_cons] at l3
    have h1 := hone n1 (by simp)
    have hdiv : n / n1 = fs.prod := by rw [← l3]; exact Nat.mul_div_cancel_left _ (by omega)
    have hw1 := S.exp (e := fs.prod) w1
    have hp1 : IsPrimitiveRoot (S.φ w ^ fs.prod) n1 := w2.pow (by omega) (by rw [← l3, mul_comm])
    simp only
    rw [if_neg (by omega), hdiv]
    have h0 : 0 < fs.prod := by
      rcases Nat.eq_zero_or_pos fs.prod with h | h
      · rw [h, mul_zero] at l3; omega
      · exact h
    by_cases hsq : (n1 - 1) * (n1 - 1) < 2 ^ 31
    · obtain ⟨o, eo, ho⟩ := outer_ft D (n := n1) (w := F.exp w fs.prod) ((Dvd.intro _ l3).trans hn) hsq hw1.1 (by rw [hw1.2]; exact hp1) mem
      have hrest : ∃ f ∈ fs, 2 ^ 31 ≤ (f - 1) * (f - 1) := by
        obtain ⟨f, hm, hb⟩ := hbig
        rcases List.mem_cons.mp hm with rfl | hm
        · omega
        · exact ⟨f, hm, hb⟩
      have hgt : fs.prod > 1 := by
        obtain ⟨f, hm, _⟩ := hrest
        exact lt_of_lt_of_le (hone f (by simp [hm])) (Nat.le_of_dvd h0 (List.dvd_prod hm))
      have hw2 := S.exp (e := n1) w1
      have hp2 : IsPrimitiveRoot (S.φ w ^ n1) fs.prod := w2.pow (by omega) l3.symm
      have eT := build_overflow D mem fs false fs.prod (F.exp w n1) rfl (fun f hf' => hone f (by simp [hf'])) hrest (by nlinarith)
        ((Dvd.intro_left _ l3).trans hn) hw2.1 (by rw [hw2.2]; exact hp2)
      simp only [eo, ok_bind]
      rw [if_pos hgt]
      by_cases h2 : Arith.is_power_of_2 (fs.prod : Int) = true
      · rw [if_pos h2]; rfl
      · rw [if_neg h2]
        simp only [eT]
        rfl
    · have eo := outer_overflow D (n := n1) (w := F.exp w fs.prod) (by nlinarith [h0]) ((Dvd.intro _ l3).trans hn) (by omega) hw1.1
        (by rw [hw1.2]; exact hp1.pow_eq_one) mem
      simp only [eo]
      rfl

end Quad
