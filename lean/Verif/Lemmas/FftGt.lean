import Verif.Lemmas.FftOther
import Verif.Lemmas.ArithExp

/-!
# The Good-Thomas transform
-/

namespace Quad
open Finset

variable {F : GF} [F.Plain] {K : Type} [Field K] {S : F.Sim K} {b q : Nat}

theorem inverseLoop_spec {nb mod : Nat} (hm : 2 ≤ mod) (hc : Nat.Coprime nb mod) : ∀ left, left ≤ mod - 1 →
    (∀ x, 1 ≤ x → x < mod - left → (x * nb) % mod ≠ 1) →
    (GoodThomas.inverseLoop nb mod left * nb) % mod = 1 ∧ GoodThomas.inverseLoop nb mod left < mod := by
  intro left
  induction left with
  | zero =>
    intro _ h
    exfalso
    obtain ⟨x, hx⟩ := Nat.exists_mul_mod_eq_one_of_coprime hc (by omega)
    have h0 : x ≠ 0 := by rintro rfl; simp at hx
    refine h x (by omega) ?_ ?_
    · omega
    · rw [mul_comm]; exact hx.2
  | succ left ih =>
    intro hl h
    unfold GoodThomas.inverseLoop
    split
    · rename_i he; exact ⟨he, by omega⟩
    · rename_i he
      refine ih (by omega) fun x h1 h2 => ?_
      by_cases hx : x = mod - (left + 1)
      · rw [hx]; exact he
      · exact h x h1 (by omega)

theorem inverse_mod_spec {nb mod : Nat} (hm : 2 ≤ mod) (hc : Nat.Coprime nb mod) :
    (GoodThomas.inverse_mod nb mod * nb) % mod = 1 ∧ GoodThomas.inverse_mod nb mod < mod :=
  inverseLoop_spec hm hc (mod - 1) le_rfl (by omega)

theorem gt_layer {n n1 n2 : Nat} (hn : n = n1 * n2) (h1 : 2 ≤ n1) (h2 : 2 ≤ n2) (hc : Nat.Coprime n1 n2)
    (hb : n * (n1 + 1) ≤ 2 ^ 31) (hT : n * n ≤ 2 ^ b) {w : K} (hone : w ^ n = 1)
    {inner outer : Array Nat → Array Nat → Res (Array Nat)} (hi : IsDft S inner n2 (w ^ n1)) (ho : IsDft S outer n1 (w ^ n2))
    {G : Array Nat} (hG : G.size = n) : IsDft S (GoodThomas.layer b n n1 n2 inner outer G) n w := by
  intro out x hos hx hv
  have hpos : 0 < n := by rw [hn]; exact Nat.mul_pos (by omega) (by omega)
  obtain ⟨c1, c2⟩ := inverse_mod_spec h1 hc.symm
  obtain ⟨d1, d2⟩ := inverse_mod_spec h2 hc
  set ci := GoodThomas.inverse_mod n2 n1 with hci
  set di := GoodThomas.inverse_mod n1 n2 with hdi
  have hcn : n2 * ci < n := by rw [hn, mul_comm n1]; exact Nat.mul_lt_mul_of_pos_left c2 (by omega)
  have hdn : n1 * di < n := by rw [hn]; exact Nat.mul_lt_mul_of_pos_left d2 (by omega)
  have hn2n : n2 ≤ n := by rw [hn]; exact Nat.le_mul_of_pos_left _ (by omega)
  have hn1n : n1 ≤ n := by rw [hn]; exact Nat.le_mul_of_pos_right _ (by omega)
  have hn31 : n * n1 + n ≤ 2 ^ 31 := by rw [← Nat.mul_succ]; exact hb
  have h2n : n + n ≤ 2 ^ 31 := by nlinarith
  have ix : ∀ {t i}, t < n1 → i < n2 → t + n1 * i < n := fun ht hi => by rw [hn]; exact idx12 ht hi
  obtain ⟨G1, e1, s1, v1⟩ := viewsLoop (S := S) hi (m := n1) (dst := G) (src := x) (doff := fun t => t)
    (soff := fun t => (n2 * t) % n) (dstep := n1) (sstep := n1) (by omega) (by omega)
    (fun t ht i hi => by have := ix ht hi; omega)
    (fun t ht i hi => by
      have := Nat.mod_lt (n2 * t) hpos
      have := ix (show 0 < n1 by omega) hi
      omega)
    (fun t t' i i' ht ht' hi hi' h => by
      rw [hG, Nat.mod_eq_of_lt (ix ht hi), Nat.mod_eq_of_lt (ix ht' hi')] at h
      exact idx12_inj ht ht' h)
    (fun j hj => hv j (by omega))
  have v1' : ∀ t, t < n1 → ∀ i, i < n2 → S.V (gt G1 (t + n1 * i)) ∧
      S.φ (gt G1 (t + n1 * i)) = ∑ j ∈ range n2, (w ^ n1) ^ (i * j) * S.φ (gt x ((n2 * t + n1 * j) % (n1 * n2))) := by
    intro t ht i hi
    have := v1 t ht i hi
    rw [hG, Nat.mod_eq_of_lt (ix ht hi)] at this
    refine ⟨this.1, this.2.trans (sum_congr rfl fun j hj => ?_)⟩
    rw [hx, ← hn, Nat.mod_add_mod]
  have hwrap : ∀ k2, k2 < n2 → wrap b (n1 * di * k2) = n1 * di * k2 := fun k2 hk2 => by
    unfold wrap
    refine Nat.mod_eq_of_lt (lt_of_lt_of_le ?_ hT)
    exact Nat.mul_lt_mul'' hdn (by omega)
  -- the output position of (k2, k1)
  have pos : ∀ k2 k1, k2 < n2 → ((wrap b (n1 * di * k2)) % n + n2 * ci * k1) % n = (n2 * (ci * k1) + n1 * (di * k2)) % n := by
    intro k2 k1 hk2
    rw [hwrap k2 hk2, Nat.mod_add_mod]
    congr 1; ring
  have m1 : ∀ k2 k1, (n2 * (ci * k1) + n1 * (di * k2)) ≡ k1 [MOD n1] := by
    intro k2 k1
    have : n2 * (ci * k1) + n1 * (di * k2) ≡ (ci * n2) * k1 [MOD n1] := by
      have : n2 * (ci * k1) + n1 * (di * k2) = (ci * n2) * k1 + n1 * (di * k2) := by ring
      rw [this]; simp [Nat.ModEq]
    have h : ci * n2 ≡ 1 [MOD n1] := by rw [Nat.ModEq, c1, Nat.mod_eq_of_lt (by omega)]
    exact this.trans (by simpa using h.mul_right k1)
  have m2 : ∀ k2 k1, (n2 * (ci * k1) + n1 * (di * k2)) ≡ k2 [MOD n2] := by
    intro k2 k1
    have : n2 * (ci * k1) + n1 * (di * k2) ≡ (di * n1) * k2 [MOD n2] := by
      have : n2 * (ci * k1) + n1 * (di * k2) = (di * n1) * k2 + n2 * (ci * k1) := by ring
      rw [this]; simp [Nat.ModEq]
    have h : di * n1 ≡ 1 [MOD n2] := by rw [Nat.ModEq, d1, Nat.mod_eq_of_lt (by omega)]
    exact this.trans (by simpa using h.mul_right k2)
  have posm1 : ∀ k2 k1, (n2 * (ci * k1) + n1 * (di * k2)) % n ≡ k1 [MOD n1] := fun k2 k1 => by
    refine Nat.ModEq.trans ?_ (m1 k2 k1)
    rw [hn]; exact (Nat.mod_modEq _ (n1 * n2)).of_mul_right n2
  have posm2 : ∀ k2 k1, (n2 * (ci * k1) + n1 * (di * k2)) % n ≡ k2 [MOD n2] := fun k2 k1 => by
    refine Nat.ModEq.trans ?_ (m2 k2 k1)
    rw [hn]; exact (Nat.mod_modEq _ (n1 * n2)).of_mul_left n1
  have all : ∀ j, j < n → ∃ t i, t < n1 ∧ i < n2 ∧ j = t + n1 * i := fun j hj =>
    ⟨j % n1, j / n1, Nat.mod_lt _ (by omega), Nat.div_lt_of_lt_mul (by rw [← hn]; exact hj), (Nat.mod_add_div j n1).symm⟩
  obtain ⟨r, e3, s3, v3⟩ := viewsLoop (S := S) ho (m := n2) (dst := out) (src := G1)
    (doff := fun t => wrap b (n1 * di * t) % n) (soff := fun t => t * n1)
    (dstep := n2 * ci) (sstep := 1) (by omega) (by omega)
    (fun t ht i hi => by
      have a := Nat.mod_lt (wrap b (n1 * di * t)) hpos
      have : n2 * ci * i ≤ n * n1 := Nat.mul_le_mul (by omega) (by omega)
      show wrap b (n1 * di * t) % n + n2 * ci * i < 2 ^ 31
      omega)
    (fun t ht i hi => by have := ix hi ht; rw [mul_comm t n1]; omega)
    (fun t t' i i' ht ht' hi hi' h => by
      rw [hos, pos t i ht, pos t' i' ht'] at h
      have a1 : i ≡ i' [MOD n1] := (posm1 t i).symm.trans (h ▸ posm1 t' i')
      have a2 : t ≡ t' [MOD n2] := (posm2 t i).symm.trans (h ▸ posm2 t' i')
      rw [Nat.ModEq, Nat.mod_eq_of_lt hi, Nat.mod_eq_of_lt hi'] at a1
      rw [Nat.ModEq, Nat.mod_eq_of_lt ht, Nat.mod_eq_of_lt ht'] at a2
      exact ⟨a2, a1⟩)
    (fun j hj => by
      obtain ⟨t, i, ht, hi, rfl⟩ := all j (by omega)
      exact (v1' t ht i hi).1)
  refine ⟨r, ?_, by omega, ?_⟩
  · unfold GoodThomas.layer
    simp only [← hci, ← hdi]
    rw [e1, ok_bind, e3]
  · intro k hk
    -- k is the position of (k % n2, k % n1)
    have hk1 : k % n1 < n1 := Nat.mod_lt _ (by omega)
    have hk2 : k % n2 < n2 := Nat.mod_lt _ (by omega)
    have hpk : (n2 * (ci * (k % n1)) + n1 * (di * (k % n2))) % n = k := by
      have a1 := (posm1 (k % n2) (k % n1)).trans (Nat.mod_modEq k n1)
      have a2 := (posm2 (k % n2) (k % n1)).trans (Nat.mod_modEq k n2)
      have := (Nat.modEq_and_modEq_iff_modEq_mul hc).mp ⟨a1, a2⟩
      rw [Nat.ModEq, ← hn, Nat.mod_mod, Nat.mod_eq_of_lt hk] at this
      exact this
    have := v3 (k % n2) hk2 (k % n1) hk1
    rw [hos, pos _ _ hk2, hpk] at this
    refine ⟨this.1, this.2.trans ?_⟩
    conv_rhs => rw [hn]
    rw [gt_sum (by omega) (by omega) hc (by rw [← hn]; exact hone) (fun j => S.φ (gt x j)) (k := k) (k1 := k % n1) (k2 := k % n2)
      (Nat.mod_modEq k n1).symm (Nat.mod_modEq k n2).symm]
    refine sum_congr rfl fun i1 hi1 => ?_
    have hi1 := mem_range.mp hi1
    have hix : ((k % n2) * n1 + 1 * i1) % G1.size = i1 + n1 * (k % n2) := by
      rw [s1, hG, Nat.mod_eq_of_lt]
      · ring
      · have := ix hi1 hk2
        rw [mul_comm (k % n2) n1]; omega
    rw [hix, (v1' i1 hi1 _ hk2).2]

/-- `get_coprime_factors` lists the prime powers in increasing order of the primes -/
theorem coprime_factors_list {n : Nat} (hb : b % 2 = 0) (hb0 : 0 < b) (hn : n < 2 ^ b) (h1 : 0 < n) :
    ∃ l, Arith.IsFactorList l n ∧ Arith.get_coprime_factors b n = .ok (l.map (fun pe => pe.1 ^ pe.2)) := by
  obtain ⟨l, el, h2, h3, h4⟩ := Arith.factor_prime_spec hb hb0 hn h1
  have hmap : l.map (fun pe => Arith.exp b pe.1 pe.2) = l.map (fun pe => pe.1 ^ pe.2) := by
    apply List.map_congr_left
    intro pe hm
    rw [Arith.exp_eq hb0, Arith.wrap_of_lt]
    refine lt_of_le_of_lt (Nat.le_of_dvd h1 ?_) hn
    rw [← h4]
    exact List.dvd_prod (List.mem_map.2 ⟨pe, hm, rfl⟩)
  exact ⟨l, ⟨h2, h3, h4⟩, by simp [Arith.get_coprime_factors, el, hmap, pure, Except.pure]⟩

theorem odd_prod {l : List (Nat × Nat)} (h : ∀ pe ∈ l, pe.1 % 2 = 1) : (l.map (fun pe => pe.1 ^ pe.2)).prod % 2 = 1 := by
  induction l with
  | nil => rfl
  | cons a l ih =>
    rw [List.map_cons, List.prod_cons, Nat.mul_mod, ih (fun pe hp => h pe (by simp [hp])), Nat.pow_mod, h a (by simp)]
    simp

theorem gt_ft (D : DftField F b q S) (mem : Nat → Nat) {n : Nat} (h2n : 2 ≤ n) (hn : n ∣ q - 1)
    (hsq : ∀ p e, p.Prime → p ^ e ∣ n → (p ^ e - 1) * (p ^ e - 1) < 2 ^ 31) (hlt : n * (n.minFac ^ n.factorization n.minFac + 1) ≤ 2 ^ 31)
    (hT : n * n ≤ 2 ^ b) :
    ∃ T v w, GoodThomas.mk' F b n mem = .ok T ∧ F.invN n = .ok v ∧ F.nthRoot n = .ok w ∧ S.V w ∧ IsPrimitiveRoot (S.φ w) n ∧
      IsFT S T n (S.φ w) ∧ T.n = n ∧
      T.ifft = fun out input => T.fft_inv out input >>= fun out => scaleIf F v out := by
  have hn0 : 0 < n := by omega
  have hnb : n < 2 ^ b := by
    have := Nat.le_of_dvd (by have := D.two; omega) hn
    have := D.room
    have := D.two
    omega
  have hn31 : n < 2 ^ 31 := by nlinarith [hlt, Nat.zero_le (n.minFac ^ n.factorization n.minFac), Nat.pos_of_ne_zero (pow_ne_zero (n.factorization n.minFac) (Nat.minFac_pos n).ne')]
  obtain ⟨v, ev, _⟩ := D.invN n hn
  obtain ⟨w, ew, w1, w2⟩ := D.root n hn
  obtain ⟨l, hl, el⟩ := coprime_factors_list D.even D.pos hnb hn0
  have hl' := hl
  obtain ⟨l1, l2, l3⟩ := hl
  cases l with
  | nil => simp at l3; omega
  | cons pe l =>
    rw [List.map_cons, List.prod_cons] at l3
    set n1 := pe.1 ^ pe.2 with hn1
    set fs := l.map (fun pe => pe.1 ^ pe.2) with hfs
    obtain ⟨p1, p2⟩ := l1 pe (by simp)
    have h1 : 1 < n1 := Nat.one_lt_pow (by omega) p1.one_lt
    have hdiv : n / n1 = fs.prod := by rw [← l3]; exact Nat.mul_div_cancel_left _ (by omega)
    have h2 : 0 < fs.prod := by
      rcases Nat.eq_zero_or_pos fs.prod with h | h
      · rw [h, mul_zero] at l3; omega
      · exact h
    have hd1 : n1 ∣ n := Dvd.intro _ l3
    have hw1 := S.exp (e := fs.prod) w1
    have hp1 : IsPrimitiveRoot (S.φ w ^ fs.prod) n1 := w2.pow (by omega) (by rw [← l3, mul_comm])
    obtain ⟨o, eo, ho⟩ := outer_ft D (n := n1) (w := F.exp w fs.prod) (hd1.trans hn) (hsq _ _ p1 hd1) hw1.1 (by rw [hw1.2]; exact hp1) mem
    rw [hw1.2] at ho
    have hmin : n.minFac = pe.1 := by
      apply le_antisymm
      · exact Nat.minFac_le_of_dvd p1.two_le ((dvd_pow_self _ (by omega)).trans hd1)
      · obtain ⟨⟨q', e'⟩, hm, hq'⟩ := hl'.mem (Nat.minFac_prime (by omega)) (Nat.minFac_dvd n)
        simp only at hq'
        rw [← hq']
        rcases List.mem_cons.mp hm with h | h
        · rw [← h]
        · exact le_of_lt ((List.pairwise_cons.mp l2).1 _ h)
    have hfac : n.factorization pe.1 = pe.2 := hl'.factorization (p := pe.1) (e := pe.2) (by simp)
    rw [hmin, hfac, ← hn1] at hlt
    by_cases hgt : fs.prod > 1
    · have hw2 := S.exp (e := n1) w1
      have hne : fs ≠ [] := by intro h; rw [h] at hgt; simp at hgt
      have hp2 : IsPrimitiveRoot (S.φ w ^ n1) fs.prod := w2.pow (by omega) l3.symm
      have hmemd : ∀ f ∈ fs, ∃ p e, p.Prime ∧ 0 < e ∧ f = p ^ e ∧ f ∣ n := by
        intro f hf
        obtain ⟨pe', hm, rfl⟩ := List.mem_map.mp hf
        refine ⟨pe'.1, pe'.2, (l1 pe' (by simp [hm])).1, (l1 pe' (by simp [hm])).2, rfl, ?_⟩
        exact (List.dvd_prod hf).trans (Dvd.intro_left _ l3)
      obtain ⟨T, v', eT, _, hTf, _, _⟩ := build_ft D mem fs false fs.prod (F.exp w n1) hne rfl (fun f hf' => by
          obtain ⟨p, e, hp, he, rfl, hd⟩ := hmemd f hf'
          exact ⟨Nat.one_lt_pow (by omega) hp.one_lt, hsq p e hp hd⟩)
        ((Dvd.intro_left _ l3).trans hn) (by nlinarith) hw2.1 (by rw [hw2.2]; exact hp2)
      rw [hw2.2] at hTf
      have hodd : fs.prod % 2 = 1 := by
        refine odd_prod fun pe' hm => ?_
        have a := (List.pairwise_cons.mp l2).1 pe' hm
        have c := (l1 pe' (by simp [hm])).1
        have := p1.two_le
        exact c.eq_two_or_odd.resolve_left (by omega)
      have hnp : ¬ (Arith.is_power_of_2 (fs.prod : Int) = true) := by
        rw [Arith.is_power_of_2_iff]
        rintro ⟨k, hk⟩
        have hk' : fs.prod = 2 ^ k := by exact_mod_cast hk
        rw [hk'] at hodd hgt
        cases k with
        | zero => simp at hgt
        | succ k => rw [pow_succ] at hodd; omega
      have hcop : Nat.Coprime n1 fs.prod := by
        rw [hfs]
        refine Nat.Coprime.symm (Nat.coprime_list_prod_left_iff.mpr ?_)
        intro f hf
        obtain ⟨pe', hm, rfl⟩ := List.mem_map.mp hf
        have a := (List.pairwise_cons.mp l2).1 pe' hm
        exact Nat.Coprime.pow _ _ ((Nat.coprime_primes (l1 pe' (by simp [hm])).1 p1).mpr (by omega))
      refine ⟨vecFT F n true v (GoodThomas.layer b n n1 fs.prod T.fft o.fft (fresh mem n))
        (GoodThomas.layer b n n1 fs.prod T.fft_inv o.fft_inv (fresh mem n)), v, w, ?_, ev, ew, w1, w2, ⟨?_, ?_⟩, rfl, rfl⟩
      rotate_left
      · exact gt_layer l3.symm h1 hgt hcop hlt hT w2.pow_eq_one hTf.fft ho.fft (by simp [fresh])
      · exact gt_layer l3.symm h1 hgt hcop hlt hT (by rw [inv_pow, w2.pow_eq_one, inv_one])
          (by rw [inv_pow]; exact hTf.fft_inv) (by rw [inv_pow]; exact ho.fft_inv) (by simp [fresh])
      · unfold GoodThomas.mk'
        simp only [intLen_of hn31, ev, ok_bind, el, ew, List.map_cons, ← hn1, ← hfs]
        rw [if_neg (by omega), hdiv]
        simp only [eo, ok_bind]
        rw [if_pos hgt, if_neg hnp]
        simp only [eT, ok_bind]
        rfl
    · have hfs1 : fs.prod = 1 := by omega
      rw [hfs1, mul_one] at l3
      rw [hfs1, pow_one, l3] at ho
      refine ⟨vecFT F n true v o.fft o.fft_inv, v, w, ?_, ev, ew, w1, w2, ⟨ho.fft, ho.fft_inv⟩, rfl, rfl⟩
      unfold GoodThomas.mk'
      simp only [intLen_of hn31, ev, ok_bind, el, ew, List.map_cons, ← hn1, ← hfs]
      rw [if_neg (by omega), hdiv]
      simp only [eo, ok_bind]
      rw [if_neg hgt]
      rfl

/-- the Cooley-Tukey constructor -/
theorem ct_ft (D : DftField F b q S) (mem : Nat → Nat) {n : Nat} (h2n : 2 ≤ n) (hn : n ∣ q - 1) (hlt : n < 2 ^ 31)
    (hsq : ∀ p, p.Prime → p ∣ n → (p - 1) * (p - 1) < 2 ^ 31) :
    ∃ T v w, CooleyTukey.mk' F b n mem = .ok T ∧ F.invN n = .ok v ∧ F.nthRoot n = .ok w ∧ S.V w ∧ IsPrimitiveRoot (S.φ w) n ∧
      IsFT S T n (S.φ w) ∧ T.n = n ∧
      T.ifft = fun out input => T.fft_inv out input >>= fun out => scaleIf F v out := by
  have hnb : n < 2 ^ b := by
    have := Nat.le_of_dvd (by have := D.two; omega) hn
    have := D.room
    have := D.two
    omega
  obtain ⟨w, ew, w1, w2⟩ := D.root n hn
  obtain ⟨fs, ef, f1, f2, f3⟩ := Arith.get_prime_factors_spec D.even D.pos hnb (by omega)
  obtain ⟨T, v, eT, ev, hT, hTn, hi⟩ := build_ft D mem fs true n w (by rintro rfl; simp at f3; omega) f3
    (fun f hf => ⟨(f1 f hf).one_lt, hsq f (f1 f hf) (f3 ▸ List.dvd_prod hf)⟩) hn hlt w1 w2
  exact ⟨T, v, w, by unfold CooleyTukey.mk'; rw [ef, ok_bind, ew, ok_bind, eT], ev, ew, w1, w2, hT, hTn, by simpa using hi⟩

end Quad
