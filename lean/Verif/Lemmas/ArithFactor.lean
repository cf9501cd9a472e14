import Verif.Lemmas.ArithExp
import Mathlib.Data.Nat.Prime.Basic
import Mathlib.Data.Nat.Factorization.Basic
import Mathlib.Data.List.Sort

namespace Quad.Arith

/-! ## is_prime -/

theorem isPrimeLoop_iff (n : Nat) : ∀ (k i : Nat), isPrimeLoop n k i = true ↔
    ∀ j, i ≤ j → j < i + k → ¬ j ∣ n := by
  intro k
  induction k with
  | zero => intro i; simp [isPrimeLoop]; intro j h1 h2; omega
  | succ k ih =>
    intro i
    unfold isPrimeLoop
    split
    · rename_i h
      simp only [Bool.false_eq_true, false_iff, not_forall]
      exact ⟨i, le_refl _, by omega, fun hc => hc (Nat.dvd_of_mod_eq_zero h)⟩
    · rename_i h
      rw [ih]
      constructor
      · intro hh j h1 h2
        rcases Nat.eq_or_lt_of_le h1 with rfl | hlt
        · intro hd; exact h (Nat.mod_eq_zero_of_dvd hd)
        · exact hh j hlt (by omega)
      · intro hh j h1 h2; exact hh j (by omega) (by omega)

theorem is_prime_iff {b n : Nat} (hb : b % 2 = 0) (hb0 : 0 < b) (hn : n < 2 ^ b) (h2 : 2 ≤ n) :
    is_prime b n = true ↔ n.Prime := by
  unfold is_prime
  split
  · rename_i h; subst h; simp [Nat.prime_two]
  · simp only [sqrt_eq hb hb0 hn]
    rw [isPrimeLoop_iff, Nat.prime_def_le_sqrt]
    constructor
    · intro h
      refine ⟨h2, fun m hm hms => h m hm (by omega)⟩
    · rintro ⟨_, h⟩ j h1 h3
      exact h j h1 (by omega)

/-! ## strip -/

theorem strip_spec {i : Nat} (hi : 2 ≤ i) : ∀ (fuel nb occ : Nat), 0 < nb → nb < fuel →
    ∃ nb' k, strip i fuel nb occ = .ok (nb', occ + k) ∧ nb = nb' * i ^ k ∧ ¬ i ∣ nb' := by
  intro fuel
  induction fuel with
  | zero => intro nb occ h1 h2; omega
  | succ f ih =>
    intro nb occ hpos hf
    unfold strip
    split
    · rename_i h
      have hd := Nat.dvd_of_mod_eq_zero h
      have hlt : nb / i < nb := Nat.div_lt_self hpos (by omega)
      have hp' : 0 < nb / i := Nat.div_pos (Nat.le_of_dvd hpos hd) (by omega)
      obtain ⟨nb', k, e, h1, h2⟩ := ih (nb / i) (occ + 1) hp' (by omega)
      refine ⟨nb', k + 1, by rw [e]; congr 2; omega, ?_, h2⟩
      rw [pow_succ, ← mul_assoc, ← h1, Nat.div_mul_cancel hd]
    · rename_i h
      exact ⟨nb, 0, rfl, by simp, fun hd => h (Nat.mod_eq_zero_of_dvd hd)⟩

/-- what a factorisation list says -/
def IsFactorList (l : List (Nat × Nat)) (n : Nat) : Prop :=
  (∀ pe ∈ l, pe.1.Prime ∧ 0 < pe.2) ∧ l.Pairwise (fun x y => x.1 < y.1) ∧
    (l.map (fun pe => pe.1 ^ pe.2)).prod = n

theorem prime_of_min {i nb : Nat} (hi : 2 ≤ i) (hmin : ∀ q, q.Prime → q ∣ nb → i ≤ q) (hd : i ∣ nb) :
    i.Prime := by
  have h1 : i.minFac.Prime := Nat.minFac_prime (by omega)
  have h2 := hmin _ h1 ((Nat.minFac_dvd i).trans hd)
  have h3 := Nat.minFac_le (n := i) (by omega)
  rwa [show i.minFac = i by omega] at h1

theorem prime_of_sqrt_lt {i nb : Nat} (hnb : 1 < nb) (hmin : ∀ q, q.Prime → q ∣ nb → i ≤ q)
    (hlt : Nat.sqrt nb < i) : nb.Prime := by
  by_contra hc
  have h1 : nb.minFac.Prime := Nat.minFac_prime (by omega)
  have h2 := hmin _ h1 (Nat.minFac_dvd nb)
  have h3 := Nat.minFac_sq_le_self (by omega : 0 < nb) hc
  have h4 : nb.minFac ≤ Nat.sqrt nb := by
    rw [Nat.le_sqrt]; nlinarith
  omega

theorem factorLoop_spec {b : Nat} (hb : b % 2 = 0) (hb0 : 0 < b) :
    ∀ (fuel i nb : Nat) (acc : List (Nat × Nat)), 0 < nb → nb < 2 ^ b → 3 ≤ i → i % 2 = 1 →
      nb + 3 < fuel + i → 0 < fuel → (∀ q, q.Prime → q ∣ nb → i ≤ q) →
      ∃ nb' l, factorLoop b fuel i nb acc = .ok (nb', acc ++ l) ∧
        (∀ pe ∈ l, pe.1.Prime ∧ 0 < pe.2 ∧ i ≤ pe.1) ∧ l.Pairwise (fun x y => x.1 < y.1) ∧
        (l.map (fun pe => pe.1 ^ pe.2)).prod * nb' = nb ∧
        (nb' = 1 ∨ (nb'.Prime ∧ i ≤ nb' ∧ ∀ pe ∈ l, pe.1 < nb')) := by
  intro fuel
  induction fuel with
  | zero => intro i nb acc _ _ _ _ _ h; omega
  | succ f ih =>
    intro i nb acc hnb hnbb hi hodd hfuel _ hmin
    unfold factorLoop
    rw [sqrt_eq hb hb0 hnbb]
    split
    · rename_i hle
      obtain ⟨nb', k, e, h1, h2⟩ := strip_spec (i := i) (by omega) (nb + 1) nb 0 hnb (by omega)
      rw [e]
      simp only [ok_bind, zero_add]
      have hsl : Nat.sqrt nb ≤ nb := Nat.sqrt_le_self nb
      have hnb' : 0 < nb' := by
        rcases Nat.eq_zero_or_pos nb' with h | h
        · subst h; simp at h1; omega
        · exact h
      have hdvd : nb' ∣ nb := ⟨i ^ k, h1⟩
      have hle' : nb' ≤ nb := Nat.le_of_dvd hnb hdvd
      have hmin' : ∀ q, q.Prime → q ∣ nb' → i + 2 ≤ q := by
        intro q hq hqd
        have := hmin q hq (hqd.trans hdvd)
        have hne : q ≠ i := by rintro rfl; exact h2 hqd
        have hne2 : q ≠ i + 1 := by
          rintro rfl
          rcases hq.eq_two_or_odd with h | h <;> omega
        omega
      obtain ⟨r, l, e', p1, p2, p3, p4⟩ := ih (i + 2) nb' (if k > 0 then acc ++ [(i, k)] else acc)
        hnb' (by omega) (by omega) (by omega) (by omega) (by omega) hmin'
      rw [e']
      by_cases hk : k > 0
      · have hip : i.Prime := prime_of_min (by omega) hmin (by
          rw [h1]; exact Dvd.dvd.mul_left (dvd_pow_self i (by omega)) _)
        refine ⟨r, (i, k) :: l, by simp [hk], ?_, ?_, ?_, ?_⟩
        · intro pe hpe
          rcases List.mem_cons.1 hpe with rfl | hm
          · exact ⟨hip, hk, le_refl _⟩
          · obtain ⟨a1, a2, a3⟩ := p1 pe hm; exact ⟨a1, a2, by omega⟩
        · rw [List.pairwise_cons]
          refine ⟨fun pe hm => ?_, p2⟩
          have := (p1 pe hm).2.2
          simp only; omega
        · simp only [List.map_cons, List.prod_cons]
          rw [h1, ← p3]; ring
        · rcases p4 with h | ⟨a1, a2, a3⟩
          · exact Or.inl h
          · refine Or.inr ⟨a1, by omega, ?_⟩
            intro pe hpe
            rcases List.mem_cons.1 hpe with rfl | hm
            · simp only; omega
            · exact a3 pe hm
      · have hk0 : k = 0 := by omega
        subst hk0
        simp only [pow_zero, mul_one] at h1
        refine ⟨r, l, by simp, ?_, p2, by rw [h1, p3], ?_⟩
        · intro pe hm; obtain ⟨a1, a2, a3⟩ := p1 pe hm; exact ⟨a1, a2, by omega⟩
        · rcases p4 with h | ⟨a1, a2, a3⟩
          · exact Or.inl h
          · exact Or.inr ⟨a1, by omega, a3⟩
    · rename_i hgt
      refine ⟨nb, [], by simp, by simp, by simp, by simp, ?_⟩
      rcases Nat.lt_or_ge 1 nb with h | h
      · have hp := prime_of_sqrt_lt h hmin (by omega)
        exact Or.inr ⟨hp, hmin nb hp (dvd_refl _), by simp⟩
      · exact Or.inl (by omega)

theorem factor_prime_spec {b nb : Nat} (hb : b % 2 = 0) (hb0 : 0 < b) (hn : nb < 2 ^ b) (h1 : 0 < nb) :
    ∃ l, factor_prime b nb = .ok l ∧ IsFactorList l nb := by
  obtain ⟨nb', k, e, h2, h3⟩ := strip_spec (i := 2) (le_refl _) (nb + 1) nb 0 h1 (by omega)
  have hnb' : 0 < nb' := by
    rcases Nat.eq_zero_or_pos nb' with h | h
    · subst h; simp at h2; omega
    · exact h
  have hodd : nb' % 2 = 1 := by omega
  have hle : nb' ≤ nb := Nat.le_of_dvd h1 ⟨_, h2⟩
  have hmin : ∀ q, q.Prime → q ∣ nb' → 3 ≤ q := by
    intro q hq hd
    have := hq.two_le
    have : q ≠ 2 := by rintro rfl; exact h3 hd
    omega
  obtain ⟨r, l, e', p1, p2, p3, p4⟩ := factorLoop_spec hb hb0 (nb' + 1) 3 nb'
    (if k > 0 then [(2, k)] else []) hnb' (by omega) (le_refl _) rfl (by omega) (by omega) hmin
  have hc : cassert (nb' % 2 == 1) = .ok () := by simp [cassert, hodd]
  have hpre : ∃ l0 : List (Nat × Nat), (if k > 0 then [(2, k)] else []) = l0 ∧
      (∀ pe ∈ l0, pe.1.Prime ∧ 0 < pe.2 ∧ pe.1 = 2) ∧ l0.Pairwise (fun x y => x.1 < y.1) ∧
      (l0.map (fun pe => pe.1 ^ pe.2)).prod = 2 ^ k := by
    by_cases hk : k > 0
    · exact ⟨[(2, k)], by simp [hk], by simp [Nat.prime_two, hk], by simp, by simp⟩
    · exact ⟨[], by simp [hk], by simp, by simp, by simp [show k = 0 by omega]⟩
  obtain ⟨l0, el0, q1, q2, q3⟩ := hpre
  rw [el0] at e'
  have hcomb : IsFactorList (l0 ++ l) (2 ^ k * (l.map (fun pe => pe.1 ^ pe.2)).prod) := by
    refine ⟨?_, ?_, by simp [q3]⟩
    · intro pe hpe
      rcases List.mem_append.1 hpe with h | h
      · exact ⟨(q1 pe h).1, (q1 pe h).2.1⟩
      · exact ⟨(p1 pe h).1, (p1 pe h).2.1⟩
    · rw [List.pairwise_append]
      refine ⟨q2, p2, fun x hx y hy => ?_⟩
      have := (q1 x hx).2.2
      have := (p1 y hy).2.2
      omega
  unfold factor_prime
  simp only [e, ok_bind, zero_add, hc, e', el0]
  rcases p4 with hr1 | ⟨hrp, hr3, hrlt⟩
  · subst hr1
    refine ⟨l0 ++ l, rfl, ?_⟩
    rw [mul_one] at p3
    rw [p3] at hcomb
    rwa [h2, mul_comm]
  · refine ⟨(l0 ++ l) ++ [(r, 1)], by rw [if_pos (by omega)]; rfl, ?_⟩
    obtain ⟨c1, c2, c3⟩ := hcomb
    refine ⟨?_, ?_, ?_⟩
    · intro pe hpe
      rcases List.mem_append.1 hpe with h | h
      · exact c1 pe h
      · simp only [List.mem_singleton] at h; subst h; exact ⟨hrp, Nat.one_pos⟩
    · rw [List.pairwise_append]
      refine ⟨c2, by simp, fun x hx y hy => ?_⟩
      simp only [List.mem_singleton] at hy; subst hy
      rcases List.mem_append.1 hx with h | h
      · have := (q1 x h).2.2; simp only; omega
      · exact hrlt x h
    · rw [List.map_append, List.prod_append, c3]
      simp
      rw [h2, ← p3]; ring

/-- `factor_distinct_prime` returns the primes of `factor_prime` -/
theorem factorDistinctLoop_eq (b : Nat) : ∀ (fuel i nb : Nat) (acc : List (Nat × Nat)),
    factorDistinctLoop b fuel i nb (acc.map Prod.fst) =
      (factorLoop b fuel i nb acc).map (fun r => (r.1, r.2.map Prod.fst)) := by
  intro fuel
  induction fuel with
  | zero => intros; rfl
  | succ f ih =>
    intro i nb acc
    unfold factorDistinctLoop factorLoop
    split
    · cases hs : strip i (nb + 1) nb 0 with
      | error e => rfl
      | ok v =>
        obtain ⟨nb', occ⟩ := v
        simp only [ok_bind]
        rw [← ih]
        congr 1
        split <;> simp
    · rfl

theorem factor_distinct_eq (b nb : Nat) :
    factor_distinct_prime b nb = (factor_prime b nb).map (fun l => l.map Prod.fst) := by
  unfold factor_distinct_prime factor_prime
  cases hs : strip 2 (nb + 1) nb 0 with
  | error e => rfl
  | ok v =>
    obtain ⟨nb', occ⟩ := v
    simp only [ok_bind]
    cases hc : cassert (nb' % 2 == 1) with
    | error e => rfl
    | ok u =>
      simp only [ok_bind]
      have := factorDistinctLoop_eq b (nb' + 1) 3 nb' (if occ > 0 then [(2, occ)] else [])
      have h2 : List.map Prod.fst (if occ > 0 then [(2, occ)] else []) = if occ > 0 then [2] else [] := by
        split <;> simp
      rw [h2] at this
      rw [this]
      cases factorLoop b (nb' + 1) 3 nb' (if occ > 0 then [(2, occ)] else []) with
      | error e => rfl
      | ok w =>
        obtain ⟨r, l⟩ := w
        simp only [Except.map, ok_bind]
        show Except.ok _ = Except.ok _
        congr 1
        split <;> simp

theorem IsFactorList.dvd {l : List (Nat × Nat)} {n : Nat} (h : IsFactorList l n) {pe : Nat × Nat}
    (hm : pe ∈ l) : pe.1 ∣ n := by
  rw [← h.2.2]
  refine (dvd_pow_self pe.1 ((h.1 pe hm).2.ne')).trans ?_
  exact List.dvd_prod (List.mem_map.2 ⟨pe, hm, rfl⟩)

theorem IsFactorList.mem {l : List (Nat × Nat)} {n q : Nat} (h : IsFactorList l n) (hq : q.Prime)
    (hd : q ∣ n) : ∃ pe ∈ l, pe.1 = q := by
  rw [← h.2.2] at hd
  rw [(Nat.prime_iff.1 hq).dvd_prod_iff] at hd
  obtain ⟨a, ha, hqa⟩ := hd
  obtain ⟨pe, hm, rfl⟩ := List.mem_map.1 ha
  exact ⟨pe, hm, ((Nat.prime_dvd_prime_iff_eq hq (h.1 pe hm).1).1 (hq.dvd_of_dvd_pow hqa)).symm⟩

theorem prod_get_prime_factors (l : List (Nat × Nat)) :
    (get_prime_factors_from l).prod = (l.map (fun pe => pe.1 ^ pe.2)).prod := by
  unfold get_prime_factors_from
  induction l with
  | nil => rfl
  | cons h t ih => simp [ih, List.prod_replicate]

/-! ## get_all_divisors -/

theorem allDivLoop_spec (n : Nat) : ∀ (k i : Nat) (ds es : List Nat),
    allDivLoop n k i ds es =
      (ds ++ ((List.range k).map (· + i)).filter (fun d => decide (n % d = 0)),
       es ++ (((List.range k).map (· + i)).filter (fun d => decide (n % d = 0))).map (fun d => n / d)) := by
  intro k
  induction k with
  | zero => intro i ds es; simp [allDivLoop]
  | succ k ih =>
    intro i ds es
    have hr : (List.range (k + 1)).map (· + i) = i :: (List.range k).map (· + (i + 1)) := by
      rw [List.range_succ_eq_map]
      simp only [List.map_cons, zero_add, List.map_map]
      congr 1
      apply List.map_congr_left
      intro a _; simp only [Function.comp]; omega
    unfold allDivLoop
    rw [hr]
    split
    · rename_i h
      rw [ih]; simp [h]
    · rename_i h
      rw [ih]; simp [h]

theorem get_all_divisors_eq {b n : Nat} (hb : b % 2 = 0) (hb0 : 0 < b) (hn : n < 2 ^ b) :
    get_all_divisors b n =
      ((List.range (Nat.sqrt n)).map (· + 1)).filter (fun d => decide (n % d = 0)) ++
      ((((List.range (Nat.sqrt n)).map (· + 1)).filter (fun d => decide (n % d = 0))).map (fun d => n / d)).reverse := by
  unfold get_all_divisors
  rw [sqrt_eq hb hb0 hn, allDivLoop_spec]
  simp

theorem mem_small {n d : Nat} :
    d ∈ ((List.range (Nat.sqrt n)).map (· + 1)).filter (fun d => decide (n % d = 0)) ↔
      0 < d ∧ d * d ≤ n ∧ d ∣ n := by
  simp only [List.mem_filter, List.mem_map, List.mem_range, decide_eq_true_eq]
  constructor
  · rintro ⟨⟨a, ha, rfl⟩, h⟩
    exact ⟨by omega, Nat.le_sqrt.1 ha, Nat.dvd_of_mod_eq_zero h⟩
  · rintro ⟨h1, h2, h3⟩
    refine ⟨⟨d - 1, ?_, by omega⟩, Nat.mod_eq_zero_of_dvd h3⟩
    have := Nat.le_sqrt.2 h2; omega

theorem small_sorted (n : Nat) :
    (((List.range (Nat.sqrt n)).map (· + 1)).filter (fun d => decide (n % d = 0))).Pairwise (· < ·) := by
  apply List.Pairwise.filter
  rw [List.pairwise_map]
  exact List.Pairwise.imp (fun h => by omega) List.pairwise_lt_range

theorem get_all_divisors_mem {b n d : Nat} (hb : b % 2 = 0) (hb0 : 0 < b) (hn : n < 2 ^ b) (hpos : 0 < n) :
    d ∈ get_all_divisors b n ↔ d ∣ n := by
  rw [get_all_divisors_eq hb hb0 hn, List.mem_append, List.mem_reverse, List.mem_map, mem_small]
  constructor
  · rintro (⟨_, _, h⟩ | ⟨a, ha, rfl⟩)
    · exact h
    · rw [mem_small] at ha; exact Nat.div_dvd_of_dvd ha.2.2
  · intro h
    have hd : 0 < d := Nat.pos_of_dvd_of_pos h hpos
    rcases Nat.le_total (d * d) n with hle | hge
    · exact Or.inl ⟨hd, hle, h⟩
    · right
      refine ⟨n / d, ?_, Nat.div_div_self h (by omega)⟩
      rw [mem_small]
      have e : d * (n / d) = n := Nat.mul_div_cancel' h
      refine ⟨Nat.div_pos (Nat.le_of_dvd hpos h) hd, ?_, Nat.div_dvd_of_dvd h⟩
      have : n / d ≤ d := by
        apply Nat.div_le_of_le_mul; exact hge
      calc n / d * (n / d) ≤ d * (n / d) := Nat.mul_le_mul_right _ this
        _ = n := e

theorem get_all_divisors_sorted {b n : Nat} (hb : b % 2 = 0) (hb0 : 0 < b) (hn : n < 2 ^ b) :
    (get_all_divisors b n).Pairwise (· ≤ ·) ∧
    ((¬ ∃ r, r * r = n) → (get_all_divisors b n).Pairwise (· < ·)) := by
  rw [get_all_divisors_eq hb hb0 hn]
  set L := ((List.range (Nat.sqrt n)).map (· + 1)).filter (fun d => decide (n % d = 0)) with hL
  have hs : L.Pairwise (· < ·) := small_sorted n
  have hm : ∀ d ∈ L, 0 < d ∧ d * d ≤ n ∧ d ∣ n := fun d hd => mem_small.1 hd
  have hrev : (L.map (fun d => n / d)).reverse.Pairwise (· < ·) := by
    rw [List.pairwise_reverse, List.pairwise_map]
    refine List.Pairwise.imp_of_mem ?_ hs
    intro a c ha hc hac
    obtain ⟨a1, a2, a3⟩ := hm a ha
    obtain ⟨c1, c2, c3⟩ := hm c hc
    have e1 : a * (n / a) = n := Nat.mul_div_cancel' a3
    have e2 : c * (n / c) = n := Nat.mul_div_cancel' c3
    by_contra hcon
    have hle : n / a ≤ n / c := by omega
    have : a * (n / a) < c * (n / c) := by
      have hpos : 0 < n / c := Nat.div_pos (by nlinarith) c1
      calc a * (n / a) ≤ a * (n / c) := Nat.mul_le_mul_left _ hle
        _ < c * (n / c) := Nat.mul_lt_mul_of_pos_right hac hpos
    omega
  have hcross : ∀ a ∈ L, ∀ c ∈ (L.map (fun d => n / d)).reverse, a ≤ c ∧ (a = c → a * a = n) := by
    intro a ha c hc
    rw [List.mem_reverse, List.mem_map] at hc
    obtain ⟨d, hd, rfl⟩ := hc
    obtain ⟨a1, a2, a3⟩ := hm a ha
    obtain ⟨d1, d2, d3⟩ := hm d hd
    have e1 : d * (n / d) = n := Nat.mul_div_cancel' d3
    have hle : a ≤ n / d := by
      by_contra hcon
      have h1 : n / d < a := by omega
      have h2 : d ≤ n / d := by rw [Nat.le_div_iff_mul_le d1]; exact d2
      nlinarith
    refine ⟨hle, fun heq => ?_⟩
    have h2 : d ≤ n / d := by rw [Nat.le_div_iff_mul_le d1]; exact d2
    rw [← heq] at e1 h2
    nlinarith
  constructor
  · rw [List.pairwise_append]
    refine ⟨hs.imp le_of_lt, hrev.imp le_of_lt, fun a ha c hc => (hcross a ha c hc).1⟩
  · intro hns
    rw [List.pairwise_append]
    refine ⟨hs, hrev, fun a ha c hc => ?_⟩
    obtain ⟨h1, h2⟩ := hcross a ha c hc
    rcases Nat.eq_or_lt_of_le h1 with h | h
    · exact absurd ⟨a, h2 h⟩ hns
    · exact h

/-! ## code length -/

theorem codeLenDown_spec {order : Nat} : ∀ i, 0 < i →
    ∃ r, codeLenDown order i = .ok r ∧ r ∣ order ∧
      ∃ j, j ≤ i ∧ 0 < j ∧ r = order / j ∧ j ∣ order ∧ ∀ j', j < j' → j' ≤ i → ¬ j' ∣ order := by
  intro i
  induction i with
  | zero => intro h; omega
  | succ i ih =>
    intro _
    unfold codeLenDown
    split
    · rename_i h
      have hd := Nat.dvd_of_mod_eq_zero h
      exact ⟨_, rfl, Nat.div_dvd_of_dvd hd, i + 1, le_refl _, by omega, rfl, hd, by intros; omega⟩
    · rename_i h
      have hi : 0 < i := by
        rcases Nat.eq_zero_or_pos i with rfl | h'
        · simp [Nat.mod_one] at h
        · exact h'
      obtain ⟨r, e, h1, j, h2, h3, h4, h5, h6⟩ := ih hi
      refine ⟨r, e, h1, j, by omega, h3, h4, h5, ?_⟩
      intro j' hj hj'
      rcases Nat.eq_or_lt_of_le hj' with rfl | hlt
      · intro hd; exact h (Nat.mod_eq_zero_of_dvd hd)
      · exact h6 j' hj (by omega)

theorem codeLenUp_spec {order : Nat} : ∀ (k i : Nat), 0 < i → i ≤ order →
    (codeLenUp order k i ∣ order ∧ i ≤ codeLenUp order k i) ∧
    ((∃ d, i ≤ d ∧ d < i + k ∧ d ∣ order) → ∀ d, i ≤ d → d ∣ order → codeLenUp order k i ≤ d) := by
  intro k
  induction k with
  | zero =>
    intro i hi hio
    refine ⟨⟨by simp [codeLenUp], by simpa [codeLenUp] using hio⟩, ?_⟩
    rintro ⟨d, h1, h2, _⟩; omega
  | succ k ih =>
    intro i hi hio
    unfold codeLenUp
    split
    · rename_i h
      exact ⟨⟨Nat.dvd_of_mod_eq_zero h, le_refl _⟩, fun _ d hd _ => hd⟩
    · rename_i h
      have hnd : ¬ i ∣ order := fun hd => h (Nat.mod_eq_zero_of_dvd hd)
      have hlt : i + 1 ≤ order := by
        rcases Nat.eq_or_lt_of_le hio with rfl | h'
        · exact absurd (dvd_refl _) hnd
        · exact h'
      obtain ⟨⟨h1, h2⟩, h3⟩ := ih (i + 1) (by omega) hlt
      refine ⟨⟨h1, by omega⟩, ?_⟩
      rintro ⟨d, hd1, hd2, hd3⟩ d' hd1' hd3'
      have hne : d ≠ i := by rintro rfl; exact hnd hd3
      have hne' : d' ≠ i := by rintro rfl; exact hnd hd3'
      exact h3 ⟨d, by omega, by omega, hd3⟩ d' (by omega) hd3'

theorem get_code_len_spec {b order n : Nat} (hb : b % 2 = 0) (hb0 : 0 < b) (ho : order < 2 ^ b)
    (hn : 0 < n) (hno : n ≤ order) :
    ∃ r, get_code_len b order n = .ok r ∧ r ∣ order ∧ n ≤ r ∧
      ((Nat.sqrt order < n ∨ ∃ d, n ≤ d ∧ d ≤ Nat.sqrt order ∧ d ∣ order) →
        ∀ d, n ≤ d → d ∣ order → r ≤ d) := by
  unfold get_code_len
  rw [if_neg (by omega)]
  split
  · rename_i h
    exact ⟨n, rfl, Nat.dvd_of_mod_eq_zero h, le_refl _, fun _ d hd _ => hd⟩
  · rename_i hnd
    rw [if_neg (by omega)]
    simp only [sqrt_eq hb hb0 ho]
    split
    · rename_i hgt
      obtain ⟨r, e, h1, j, h2, h3, h4, h5, h6⟩ := codeLenDown_spec (order := order)
        (order / n) (Nat.div_pos hno hn)
      refine ⟨r, e, h1, ?_, ?_⟩
      · rw [h4, Nat.le_div_iff_mul_le h3]
        calc n * j ≤ n * (order / n) := Nat.mul_le_mul_left _ h2
          _ ≤ order := Nat.mul_div_le order n
      · intro _ d hd hdd
        rw [h4]
        have hdpos : 0 < d := by omega
        by_contra hcon
        have hlt : d < order / j := by omega
        have hq : order / d ∣ order := Nat.div_dvd_of_dvd hdd
        have hle : order / d ≤ order / n := Nat.div_le_div_left hd hn
        refine h6 (order / d) ?_ hle hq
        have e1 : d * (order / d) = order := Nat.mul_div_cancel' hdd
        have e2 : j * (order / j) = order := Nat.mul_div_cancel' h5
        by_contra hc2
        have : order / d ≤ j := by omega
        have : d * (order / d) < j * (order / j) := by
          calc d * (order / d) ≤ d * j := Nat.mul_le_mul_left _ this
            _ < order / j * j := Nat.mul_lt_mul_of_pos_right hlt h3
            _ = j * (order / j) := Nat.mul_comm _ _
        omega
    · rename_i hle
      obtain ⟨⟨h1, h2⟩, h3⟩ := codeLenUp_spec (order := order) (Nat.sqrt order + 1 - n) n hn hno
      refine ⟨_, rfl, h1, h2, ?_⟩
      rintro (h | ⟨d, hd1, hd2, hd3⟩)
      · omega
      · exact h3 ⟨d, hd1, by omega, hd3⟩

theorem list_prod_pos {l : List Nat} (h : ∀ f ∈ l, 0 < f) : 0 < l.prod := by
  induction l with
  | nil => simp
  | cons a t ih =>
    rw [List.prod_cons]
    exact Nat.mul_pos (h a (by simp)) (ih (fun f hf => h f (by simp [hf])))

theorem highCompoBack_spec {n : Nat} (hn : 2 ≤ n) : ∀ (fs : List Nat) (x : Nat),
    (∀ f ∈ fs, 0 < f) → x = fs.prod → n ≤ x →
    ∃ r suf, highCompoBack n fs x = .ok (.inl r) ∧ suf <:+ fs ∧ r = suf.prod ∧ n ≤ r ∧
      suf.tail.prod < n := by
  intro fs
  induction fs with
  | nil => intro x _ hx hnx; simp at hx; omega
  | cons f fs ih =>
    intro x hpos hx hnx
    have hf : 0 < f := hpos f (by simp)
    have hxd : x / f = fs.prod := by rw [hx, List.prod_cons, Nat.mul_div_cancel_left _ hf]
    unfold highCompoBack
    rw [if_neg (by omega)]
    simp only [hxd]
    split
    · rename_i hlt
      refine ⟨_, f :: fs, rfl, List.suffix_refl _, by simp [mul_comm], ?_, by simpa using hlt⟩
      rw [hx, List.prod_cons, mul_comm] at hnx; exact hnx
    · rename_i hge
      obtain ⟨r, suf, e, h1, h2, h3, h4⟩ := ih fs.prod (fun f h => hpos f (by simp [h])) rfl (by omega)
      exact ⟨r, suf, e, h1.trans (List.suffix_cons _ _), h2, h3, h4⟩

theorem highCompoLoop_spec {b n : Nat} (hn : 2 ≤ n) : ∀ (post pre : List Nat),
    (∀ f ∈ pre ++ post, 0 < f) → (pre ++ post).prod < 2 ^ b → pre.prod < n → n ≤ (pre ++ post).prod →
    ∃ r seg, highCompoLoop b n pre post pre.prod = .ok r ∧ seg <:+: (pre ++ post) ∧ r = seg.prod ∧ n ≤ r ∧
      seg.tail.prod < n := by
  intro post
  induction post with
  | nil => intro pre _ _ h1 h2; simp at h2; omega
  | cons f post ih =>
    intro pre hpos hb hlt hge
    have hposfull : ∀ g ∈ pre ++ [f] ++ post, 0 < g := by simpa using hpos
    have hprodpre : pre.prod * f = (pre ++ [f]).prod := by simp
    have hpp : 0 < post.prod := list_prod_pos (fun g hg => hpos g (by simp [hg]))
    have heq : pre ++ f :: post = (pre ++ [f]) ++ post := by simp
    have hle : (pre ++ [f]).prod ≤ (pre ++ f :: post).prod := by
      rw [heq, List.prod_append (l₁ := pre ++ [f])]
      exact Nat.le_mul_of_pos_right _ hpp
    unfold highCompoLoop
    simp only [hprodpre, wrap_of_lt (lt_of_le_of_lt hle hb)]
    split
    · rename_i h
      obtain ⟨r, suf, e, h1, h2, h3, h4⟩ := highCompoBack_spec hn (pre ++ [f]) _
        (fun g hg => hpos g (by
          rcases List.mem_append.1 hg with h | h
          · simp [h]
          · simp only [List.mem_singleton] at h; simp [h])) rfl h
      have hinf : suf <:+: pre ++ f :: post := by
        rw [heq]; exact h1.isInfix.trans (List.prefix_append _ _).isInfix
      have hrlt : r < 2 ^ b := by
        have : r ∣ (pre ++ f :: post).prod := by
          obtain ⟨s, t, hst⟩ := hinf
          rw [h2, ← hst]
          simp only [List.prod_append]
          exact ⟨s.prod * t.prod, by ring⟩
        exact lt_of_le_of_lt (Nat.le_of_dvd (list_prod_pos hpos) this) hb
      rw [e]
      exact ⟨r, suf, by simp [wrap_of_lt hrlt], hinf, h2, h3, h4⟩
    · rename_i h
      obtain ⟨r, seg, e, h1, h2, h3, h4⟩ := ih (pre ++ [f]) hposfull (by rw [← heq]; exact hb)
        (by omega) (by rw [← heq]; exact hge)
      exact ⟨r, seg, e, by rw [heq]; exact h1, h2, h3, h4⟩

theorem get_prime_factors_spec {b nb : Nat} (hb : b % 2 = 0) (hb0 : 0 < b) (hn : nb < 2 ^ b) (h1 : 0 < nb) :
    ∃ l, get_prime_factors b nb = .ok l ∧ (∀ p ∈ l, p.Prime) ∧ l.Pairwise (· ≤ ·) ∧ l.prod = nb := by
  obtain ⟨l, e, hl⟩ := factor_prime_spec hb hb0 hn h1
  refine ⟨get_prime_factors_from l, by simp [get_prime_factors, e], ?_, ?_, ?_⟩
  · intro p hp
    unfold get_prime_factors_from at hp
    rw [List.mem_flatMap] at hp
    obtain ⟨pe, hm, hp⟩ := hp
    rw [List.mem_replicate] at hp
    rw [hp.2]; exact (hl.1 pe hm).1
  · obtain ⟨_, h2, _⟩ := hl
    unfold get_prime_factors_from
    rw [List.pairwise_flatMap]
    refine ⟨?_, ?_⟩
    · intro pe _; rw [List.pairwise_replicate]; right; exact le_refl _
    · refine h2.imp ?_
      intro x y hxy a ha c hc
      rw [List.mem_replicate] at ha hc
      rw [ha.2, hc.2]; exact le_of_lt hxy
  · rw [prod_get_prime_factors, hl.2.2]

theorem infix_prod_dvd {s l : List Nat} (h : s <:+: l) : s.prod ∣ l.prod := by
  obtain ⟨a, c, rfl⟩ := h
  simp only [List.prod_append]
  exact ⟨a.prod * c.prod, by ring⟩

theorem high_compo_factors_spec {b n : Nat} {fs : List Nat} (hpos : ∀ f ∈ fs, 0 < f)
    (hb : fs.prod < 2 ^ b) (hn : 2 ≤ n) (hno : n ≤ fs.prod) :
    ∃ r seg, get_code_len_high_compo_factors b fs n = .ok r ∧ seg <:+: fs ∧ r = seg.prod ∧ n ≤ r ∧
      seg.tail.prod < n := by
  have := highCompoLoop_spec (b := b) hn fs [] (by simpa using hpos) (by simpa using hb) (by simp; omega)
    (by simpa using hno)
  simpa [get_code_len_high_compo_factors] using this

theorem get_code_len_high_compo_spec {b order n : Nat} (hb : b % 2 = 0) (hb0 : 0 < b)
    (ho : order < 2 ^ b) (hn : 2 ≤ n) (hno : n ≤ order) :
    ∃ r, get_code_len_high_compo b order n = .ok r ∧ r ∣ order ∧ n ≤ r := by
  obtain ⟨l, e, hp, _, hprod⟩ := get_prime_factors_spec hb hb0 ho (by omega)
  obtain ⟨r, seg, e', h1, h2, h3, _⟩ := high_compo_factors_spec (b := b) (n := n) (fs := l)
    (fun f hf => (hp f hf).pos) (by rw [hprod]; exact ho) hn (by rw [hprod]; exact hno)
  refine ⟨r, ?_, ?_, h3⟩
  · simp [get_code_len_high_compo, cassert, hno, e, e']
  · rw [h2, ← hprod]; exact infix_prod_dvd h1

theorem IsFactorList.factorization_aux : ∀ (l : List (Nat × Nat)) (m : Nat), IsFactorList l m →
    ∀ p e, (p, e) ∈ l → m.factorization p = e := by
  intro l
  induction l with
  | nil => intro m _ p e h; simp at h
  | cons hd tl ih =>
    intro m hm p e hmem
    obtain ⟨h1, h2, h3⟩ := hm
    rw [List.pairwise_cons] at h2
    have htl : IsFactorList tl (tl.map (fun pe => pe.1 ^ pe.2)).prod :=
      ⟨fun pe h => h1 pe (by simp [h]), h2.2, rfl⟩
    have hhd := h1 hd (by simp)
    have hne : (tl.map (fun pe => pe.1 ^ pe.2)).prod ≠ 0 := by
      apply Nat.ne_of_gt
      apply list_prod_pos
      intro f hf
      obtain ⟨pe, hpe, rfl⟩ := List.mem_map.1 hf
      exact Nat.pow_pos (h1 pe (by simp [hpe])).1.pos
    rw [List.map_cons, List.prod_cons] at h3
    rw [← h3, Nat.factorization_mul (Nat.pow_pos hhd.1.pos).ne' hne, hhd.1.factorization_pow]
    rcases List.mem_cons.1 hmem with rfl | hm
    · have hz : (tl.map (fun pe : Nat × Nat => pe.1 ^ pe.2)).prod.factorization p = 0 := by
        apply Nat.factorization_eq_zero_of_not_dvd
        intro hd
        obtain ⟨pe, hpe, hpeq⟩ := htl.mem hhd.1 hd
        have := h2.1 pe hpe
        simp only at this; omega
      simp [hz]
    · have := ih _ htl p e hm
      have hlt := h2.1 (p, e) hm
      simp only at hlt
      simp [this, show hd.1 ≠ p by omega]

theorem IsFactorList.factorization {l : List (Nat × Nat)} {n p e : Nat} (h : IsFactorList l n)
    (hm : (p, e) ∈ l) : n.factorization p = e := IsFactorList.factorization_aux l n h p e hm

end Quad.Arith
