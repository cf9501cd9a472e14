import Verif.Lemmas.ArithExp
import Mathlib.NumberTheory.LegendreSymbol.JacobiSymbol
import Mathlib.Data.Int.ModEq

namespace Quad.Arith

/-! ## Chinese remainder -/

theorem egcdLoopZ_nonneg : ∀ (fuel : Nat) (st st' : EGcd), 0 ≤ st.oldR → 0 ≤ st.r →
    egcdLoopZ fuel st = .ok st' → 0 ≤ st'.oldR := by
  intro fuel
  induction fuel with
  | zero =>
    intro st st' h1 h2 h
    unfold egcdLoopZ at h
    split at h
    · cases h; exact h1
    · cases h
  | succ f ih =>
    intro st st' h1 h2 h
    unfold egcdLoopZ at h
    split at h
    · cases h; exact h1
    · have hmod : st.oldR - Int.tdiv st.oldR st.r * st.r = Int.tmod st.oldR st.r := by
        have := Int.tdiv_mul_add_tmod st.oldR st.r
        linarith
      refine ih _ st' ?_ ?_ h
      · exact h2
      · simp only
        rw [hmod]; exact Int.tmod_nonneg _ h1

theorem extended_gcdZ_nonneg {a c : Int} (ha : 0 ≤ a) (hc : 0 ≤ c) :
    ∃ st, extended_gcdZ a c = .ok st ∧ a * st.oldS + c * st.oldT = st.oldR ∧
      st.oldR = Int.gcd a c := by
  obtain ⟨st, e, hi, hr⟩ := extended_gcdZ_spec a c
  refine ⟨st, e, hi.bez0, ?_⟩
  have hnn : 0 ≤ st.oldR := egcdLoopZ_nonneg _ _ _ ha hc e
  have := hi.gcd
  rw [hr, Int.gcd_zero_right] at this
  rw [← this]
  omega

/-- `chinese_remainder` on integers without bound -/
def crtTermZ (acc : Int) (ni : Nat) : Res (Int × Int) :=
  if ni = 0 then ub
  else do
    let N := Int.tdiv acc ni
    let st ← extended_gcdZ N ni
    pure (N, st.oldS)

def crtSumZ (acc : Int) : List (Nat × Nat) → Int → Res Int
  | [], x => .ok x
  | (a, n) :: rest, x => do
    let (N, M) ← crtTermZ acc n
    crtSumZ acc rest (x + N * M * a)

def chinese_remainderZ (l : List (Nat × Nat)) : Res Int := do
  let acc : Int := l.foldl (fun acc an => acc * an.2) 1
  let x ← crtSumZ acc l 0
  let x := Int.tmod x acc
  pure (if x < 0 then acc + x else x)

theorem foldl_mul_prod (l : List (Nat × Nat)) (x : Int) :
    l.foldl (fun acc an => acc * (an.2 : Int)) x = x * ((l.map (fun an => an.2)).prod : Nat) := by
  induction l generalizing x with
  | nil => simp
  | cons h t ih => simp [ih]; ring

theorem crtTermZ_spec {P n : Nat} (hn : 0 < n) (_hd : n ∣ P) (hco : Nat.Coprime (P / n) n) :
    ∃ N M : Int, crtTermZ (P : Int) n = .ok (N, M) ∧ N = ((P / n : Nat) : Int) ∧ N * M ≡ 1 [ZMOD n] := by
  unfold crtTermZ
  rw [if_neg (by omega)]
  have hdiv : Int.tdiv (P : Int) (n : Int) = ((P / n : Nat) : Int) := by
    rw [Int.tdiv_eq_ediv_of_nonneg (by omega)]; exact_mod_cast rfl
  rw [hdiv]
  obtain ⟨st, e, hb, hg⟩ := extended_gcdZ_nonneg (a := ((P / n : Nat) : Int)) (c := (n : Int))
    (Int.natCast_nonneg _) (Int.natCast_nonneg _)
  refine ⟨((P / n : Nat) : Int), st.oldS, ?_, rfl, ?_⟩
  · simp only [e]; rfl
  · have h1 : st.oldR = 1 := by
      rw [hg, Int.gcd_natCast_natCast]; exact_mod_cast hco
    rw [h1] at hb
    apply Int.ModEq.symm
    rw [Int.modEq_iff_dvd]
    exact ⟨-st.oldT, by linarith⟩

/-- the running sum of `chinese_remainder` modulo each modulus -/
theorem crtSumZ_spec {P : Nat} : ∀ (l : List (Nat × Nat)) (x : Int),
    (∀ an ∈ l, 0 < an.2 ∧ an.2 ∣ P ∧ Nat.Coprime (P / an.2) an.2) →
    ∃ y, crtSumZ (P : Int) l x = .ok y ∧
      (∀ q : Nat, (∀ an ∈ l, q ∣ P / an.2) → y ≡ x [ZMOD q]) ∧
      (∀ an ∈ l, (∀ an' ∈ l, an' ≠ an → an.2 ∣ P / an'.2) → l.count an = 1 →
        y ≡ x + an.1 [ZMOD an.2]) := by
  intro l
  induction l with
  | nil => intro x _; exact ⟨x, rfl, fun _ _ => rfl, fun _ h => by simp at h⟩
  | cons hd tl ih =>
    intro x h
    obtain ⟨a, n⟩ := hd
    obtain ⟨h1, h2, h3⟩ := h (a, n) (by simp)
    obtain ⟨N, M, e, hN, hNM⟩ := crtTermZ_spec h1 h2 h3
    obtain ⟨y, e', hy1, hy2⟩ := ih (x + N * M * a) (fun an han => h an (by simp [han]))
    refine ⟨y, ?_, ?_, ?_⟩
    · simp only at e
      rw [crtSumZ]; simp [e, e']
    · intro q hq
      refine (hy1 q (fun an han => hq an (by simp [han]))).trans ?_
      have : (q : Int) ∣ N := by rw [hN]; exact_mod_cast hq (a, n) (by simp)
      have h0 : N * M * a ≡ 0 [ZMOD q] := by
        rw [Int.modEq_zero_iff_dvd, mul_assoc]; exact Dvd.dvd.mul_right this _
      simpa using Int.ModEq.add (Int.ModEq.refl x) h0
    · intro an han hdist hcount
      rcases List.mem_cons.1 han with rfl | hmem
      · have hnot : (a, n) ∉ tl := by
          intro hc
          have := List.one_le_count_iff.2 hc
          rw [List.count_cons_self] at hcount; omega
        refine (hy1 n (fun an' han' => hdist an' (by simp [han']) ?_)).trans ?_
        · rintro rfl; exact hnot han'
        · have : N * M * a ≡ 1 * a [ZMOD n] := Int.ModEq.mul hNM (Int.ModEq.refl _)
          rw [one_mul] at this
          exact Int.ModEq.add (Int.ModEq.refl x) this
      · have hne : (a, n) ≠ an := by
          rintro rfl
          rw [List.count_cons_self] at hcount
          have := List.one_le_count_iff.2 hmem; omega
        rw [List.count_cons_of_ne hne] at hcount
        refine (hy2 an hmem (fun an' han' hne' => hdist an' (by simp [han']) hne') hcount).trans ?_
        have : (an.2 : Int) ∣ N := by rw [hN]; exact_mod_cast hdist (a, n) (by simp) hne
        have h0 : N * M * a ≡ 0 [ZMOD an.2] := by
          rw [Int.modEq_zero_iff_dvd, mul_assoc]; exact Dvd.dvd.mul_right this _
        have := Int.ModEq.add (Int.ModEq.add (Int.ModEq.refl x) h0) (Int.ModEq.refl (an.1 : Int))
        simpa using this

theorem prod_div_of_mem {l : List (Nat × Nat)} (hpos : ∀ an ∈ l, 0 < an.2)
    (hco : l.Pairwise (fun x y => Nat.Coprime x.2 y.2)) :
    ∀ an ∈ l, an.2 ∣ (l.map (fun an => an.2)).prod ∧
      Nat.Coprime ((l.map (fun an => an.2)).prod / an.2) an.2 := by
  induction l with
  | nil => simp
  | cons hd tl ih =>
    intro an han
    rw [List.pairwise_cons] at hco
    have hcop : Nat.Coprime hd.2 (tl.map (fun an => an.2)).prod := by
      rw [Nat.coprime_list_prod_right_iff]
      intro m hm
      obtain ⟨y, hy, rfl⟩ := List.mem_map.1 hm
      exact hco.1 y hy
    rcases List.mem_cons.1 han with rfl | hmem
    · refine ⟨by simp, ?_⟩
      simp only [List.map_cons, List.prod_cons]
      rw [Nat.mul_div_cancel_left _ (hpos _ (by simp))]
      exact hcop.symm
    · obtain ⟨i1, i2⟩ := ih (fun an h => hpos an (by simp [h])) hco.2 an hmem
      simp only [List.map_cons, List.prod_cons]
      refine ⟨Dvd.dvd.mul_left i1 _, ?_⟩
      rw [Nat.mul_div_assoc _ i1]
      exact Nat.Coprime.mul_left (hco.1 an hmem) i2

theorem dvd_prod_div {l : List (Nat × Nat)} (hpos : ∀ an ∈ l, 0 < an.2)
    (hco : l.Pairwise (fun x y => Nat.Coprime x.2 y.2)) :
    ∀ an ∈ l, ∀ an' ∈ l, an' ≠ an → an.2 ∣ (l.map (fun an => an.2)).prod / an'.2 := by
  induction l with
  | nil => simp
  | cons hd tl ih =>
    intro an han an' han' hne
    have hpos' : ∀ an ∈ tl, 0 < an.2 := fun an h => hpos an (by simp [h])
    have hco' := hco
    rw [List.pairwise_cons] at hco'
    simp only [List.map_cons, List.prod_cons]
    rcases List.mem_cons.1 han' with rfl | hm'
    · rw [Nat.mul_div_cancel_left _ (hpos _ (by simp))]
      rcases List.mem_cons.1 han with rfl | hm
      · exact absurd rfl hne
      · exact (prod_div_of_mem hpos' hco'.2 an hm).1
    · have hd' := (prod_div_of_mem hpos' hco'.2 an' hm').1
      rw [Nat.mul_div_assoc _ hd']
      rcases List.mem_cons.1 han with rfl | hm
      · exact Dvd.intro _ rfl
      · exact Dvd.dvd.mul_left (ih hpos' hco'.2 an hm an' hm' hne) _

theorem chinese_remainderZ_spec (l : List (Nat × Nat)) (hpos' : ∀ an ∈ l, 0 < an.2)
    (hco : l.Pairwise (fun x y => Nat.Coprime x.2 y.2)) :
    ∃ x : Int, chinese_remainderZ l = .ok x ∧ 0 ≤ x ∧ x < ((l.map (fun an => an.2)).prod : Nat) ∧
      ∀ an ∈ l, x ≡ an.1 [ZMOD an.2] := by
  have hP : 0 < (l.map (fun an => an.2)).prod := by
    apply List.prod_pos
    intro a ha
    obtain ⟨y, hy, rfl⟩ := List.mem_map.1 ha
    exact hpos' y hy
  set P := (l.map (fun an => an.2)).prod with hPdef
  have hfold : l.foldl (fun acc an => acc * (an.2 : Int)) 1 = (P : Int) := by
    rw [foldl_mul_prod, one_mul]
  have hall : ∀ an ∈ l, 0 < an.2 ∧ an.2 ∣ P ∧ Nat.Coprime (P / an.2) an.2 := fun an han =>
    ⟨hpos' an han, prod_div_of_mem hpos' hco an han⟩
  obtain ⟨y, e, _, hy⟩ := crtSumZ_spec l 0 hall
  have hnodup : ∀ an ∈ l, an.2 ≠ 1 → l.count an = 1 := by
    intro an han h1
    have hle : l.count an ≤ 1 := by
      by_contra hc
      push Not at hc
      have hs : List.Sublist (List.replicate 2 an) l := List.replicate_sublist_iff.2 hc
      have := hco.sublist hs
      simp only [List.replicate_succ, List.replicate_zero, List.pairwise_cons, List.mem_cons, forall_eq_or_imp,
        List.not_mem_nil, false_or] at this
      exact h1 ((Nat.coprime_self _).1 this.1.1)
    have := List.one_le_count_iff.2 han
    omega
  have hy' : ∀ an ∈ l, y ≡ an.1 [ZMOD an.2] := by
    intro an han
    by_cases h1 : an.2 = 1
    · rw [h1, Nat.cast_one]; exact Int.modEq_one
    · have := hy an han (fun an' h' hne => dvd_prod_div hpos' hco an han an' h' hne) (hnodup an han h1)
      simpa using this
  have hmodP : Int.tmod y P ≡ y [ZMOD P] := by
    rw [Int.modEq_iff_dvd]
    exact ⟨Int.tdiv y P, by have := Int.tdiv_mul_add_tmod y (P:Int); linarith⟩
  have hlt : Int.tmod y P < P := Int.tmod_lt_of_pos y (by omega)
  have hgt : -(P:Int) < Int.tmod y P := by
    have := Int.lt_tmod_of_pos y (show (0:Int) < P by omega)
    linarith
  unfold chinese_remainderZ
  simp only [hfold, e]
  refine ⟨if Int.tmod y P < 0 then (P:Int) + Int.tmod y P else Int.tmod y P, rfl, ?_, ?_, ?_⟩
  · split <;> omega
  · split <;> omega
  · intro an han
    have hd : (an.2 : Int) ∣ P := by exact_mod_cast (hall an han).2.1
    have h1 : Int.tmod y P ≡ an.1 [ZMOD an.2] := (hmodP.of_dvd hd).trans (hy' an han)
    split
    · have h0 : (P : Int) ≡ 0 [ZMOD an.2] := (Int.modEq_zero_iff_dvd).2 hd
      simpa using h0.add h1
    · exact h1

/-! ## Jacobi symbol -/

open scoped NumberTheorySymbols

theorem tmod_two_natAbs (n : Int) : Int.tmod n 2 = 0 ↔ n % 2 = 0 := by
  rw [← Int.dvd_iff_tmod_eq_zero, ← Int.dvd_iff_emod_eq_zero]

theorem jacobiLoop_spec : ∀ (fuel : Nat) (n : Int) (m : Nat) (jac : Int), m % 2 = 1 →
    2 * n.natAbs + (if n < 0 then 1 else 0) + 2 ≤ fuel →
    jacobiLoop fuel n (m : Int) jac = .ok (jac * J(n | m)) := by
  intro fuel
  induction fuel with
  | zero => intro n m jac hm hf; omega
  | succ f ih =>
    intro n m jac hm hf
    have hmodd : ¬ Int.tmod (m : Int) 2 = 0 := by rw [tmod_two_natAbs]; omega
    unfold jacobiLoop
    split
    · rename_i h
      have : m = 1 := by omega
      subst this; simp
    · rename_i h1
      split
      · rename_i h
        have hn0 : n = 0 := by
          rcases h with h | h
          · exact h
          · exact absurd h.2 hmodd
        subst hn0
        have : jacobiLoop f 0 1 0 = .ok 0 := by
          obtain ⟨g, rfl⟩ : ∃ g, f = g + 1 := ⟨f - 1, by omega⟩
          simp [jacobiLoop]
        rw [this, jacobiSym.zero_left (by omega), mul_zero]
      · rename_i h2
        have hn0 : n ≠ 0 := fun hc => h2 (Or.inl hc)
        split
        · rename_i hev
          rw [tmod_two_natAbs] at hev
          have hdiv : Int.tdiv n 2 = n / 2 := by
            rw [Int.tdiv_eq_ediv_of_dvd (Int.dvd_of_emod_eq_zero hev)]
          rw [hdiv, ih _ _ _ hm]
          · rw [← jacobiSym.even_odd hev hm]
            have hc : (Int.tmod (m:Int) 8 = 3 ∨ Int.tmod (m:Int) 8 = 5) ↔ (m % 8 = 3 ∨ m % 8 = 5) := by
              rw [Int.tmod_eq_emod_of_nonneg (by omega)]; omega
            simp only [hc]
            split <;> simp
          · split <;> split at hf <;> omega
        · rename_i hodd
          rw [tmod_two_natAbs] at hodd
          split
          · rename_i hneg
            rw [ih _ _ _ hm]
            · have h3 := jacobiSym.neg n (Nat.odd_iff.2 hm)
              have hc : Int.tmod (m:Int) 4 = 3 ↔ m % 4 = 3 := by
                rw [Int.tmod_eq_emod_of_nonneg (by omega)]; omega
              simp only [hc]
              rw [h3]
              rcases Nat.odd_mod_four_iff.mp hm with h4 | h4
              · rw [ZMod.χ₄_nat_one_mod_four h4]; simp [h4]
              · rw [ZMod.χ₄_nat_three_mod_four h4]; simp [h4]
            · rw [if_neg (by omega)]; rw [if_pos hneg] at hf; omega
          · rename_i hpos
            obtain ⟨k, rfl⟩ : ∃ k : Nat, n = k := ⟨n.toNat, by omega⟩
            have hk : k % 2 = 1 := by omega
            have hmod : Int.tmod (m : Int) (k : Int) = ((m % k : Nat) : Int) := by
              rw [Int.tmod_eq_emod_of_nonneg (by omega)]; push_cast; rfl
            rw [hmod, ih _ _ _ hk]
            · have := jacobiSym.quadratic_reciprocity_if hk hm
              rw [← this]
              have hcast : J(((m % k : Nat) : Int) | k) = J((m : Int) | k) := by
                rw [jacobiSym.mod_left (m : Int) k]; push_cast; rfl
              rw [hcast]
              have hc : (Int.tmod (k:Int) 4 = 3 ∧ Int.tmod (m:Int) 4 = 3) ↔ (k % 4 = 3 ∧ m % 4 = 3) := by
                rw [Int.tmod_eq_emod_of_nonneg (by omega), Int.tmod_eq_emod_of_nonneg (by omega)]; omega
              simp only [hc]
              split <;> simp
            · have hlt : m % k < k := Nat.mod_lt _ (by omega)
              rw [if_neg (by omega)]
              rw [if_neg (by omega)] at hf
              simp only [Int.natAbs_natCast] at hf ⊢
              omega

theorem jacobi_eq (n : Int) {m : Nat} (hm : m % 2 = 1) : jacobi n (m : Int) = .ok (J(n | m)) := by
  unfold jacobi
  rw [if_neg (by rw [tmod_two_natAbs]; omega), if_neg (by omega)]
  rw [jacobiLoop_spec _ _ _ _ hm (by split <;> omega), one_mul]

theorem jacobi_even (n m : Int) (hm : m % 2 = 0) : jacobi n m = .error (.throws .domainError) := by
  unfold jacobi
  rw [if_pos (by rw [tmod_two_natAbs]; exact hm)]

theorem jacobi_neg (n m : Int) (hm : m < 0) : jacobi n m = .error (.throws .domainError) := by
  unfold jacobi
  split
  · rfl
  · rfl

/-! ## Solovay-Strassen -/

theorem solovay_strassen1_prime {b a p : Nat} (hb : 2 ≤ b) (hp : p.Prime) (hodd : p ≠ 2)
    (hpb : p * p ≤ 2 ^ b) :
    solovay_strassen1 b a p = .ok true := by
  have := Fact.mk hp
  have hp2 : p % 2 = 1 := hp.eq_two_or_odd.resolve_left hodd
  have hpos := hp.pos
  have hple : p < 2 ^ b := by nlinarith [hp.two_le]
  have he : wrap b (p + 2 ^ b - 1) / 2 = p / 2 := by
    have : wrap b (p + 2 ^ b - 1) = p - 1 := by
      unfold wrap
      rw [show p + 2 ^ b - 1 = (p - 1) + 2 ^ b by omega, Nat.add_mod_right, Nat.mod_eq_of_lt (by omega)]
    rw [this]; omega
  unfold solovay_strassen1
  simp only [he, exp_mod_eq hpos hpb, ok_bind, jacobi_eq _ hp2]
  have hcast := legendreSym.eq_pow p (a : ℤ)
  rw [jacobiSym.legendreSym.to_jacobiSym] at hcast
  have hcast' : ((J((a:ℤ) | p) : ℤ) : ZMod p) = ((a ^ (p / 2) % p : Nat) : ZMod p) := by
    rw [hcast, ZMod.natCast_mod]; push_cast; rfl
  have hlt : a ^ (p / 2) % p < p := Nat.mod_lt _ hpos
  set r := a ^ (p / 2) % p with hr
  have h1b : 1 < 2 ^ b := Nat.one_lt_two_pow (by omega)
  have htwo : 2 < p := lt_of_le_of_ne hp.two_le (Ne.symm hodd)
  have hpow : (2:Int) ^ b = ((2 ^ b : Nat) : Int) := by push_cast; rfl
  rcases jacobiSym.trichotomy (a : ℤ) p with hj | hj | hj
  · rw [hj] at hcast' ⊢
    have : r = 0 := by
      have h0 : ((r : Nat) : ZMod p) = ((0 : Nat) : ZMod p) := by rw [← hcast']; simp
      rw [ZMod.natCast_eq_natCast_iff'] at h0
      simpa [Nat.mod_eq_of_lt hlt] using h0
    simp [this]; rfl
  · rw [hj] at hcast' ⊢
    have : r = 1 := by
      have h0 : ((r : Nat) : ZMod p) = ((1 : Nat) : ZMod p) := by rw [← hcast']; simp
      rw [ZMod.natCast_eq_natCast_iff'] at h0
      simpa [Nat.mod_eq_of_lt hlt, Nat.mod_eq_of_lt (show 1 < p by omega)] using h0
    have hm : (1:Int) % 2 ^ b = 1 := Int.emod_eq_of_lt (by norm_num) (by rw [hpow]; exact_mod_cast h1b)
    simp [this, hm]; rfl
  · rw [hj] at hcast' ⊢
    have : r = p - 1 := by
      have h0 : ((r : Nat) : ZMod p) = ((p - 1 : Nat) : ZMod p) := by
        rw [← hcast', Nat.cast_sub (by omega)]; simp
      rw [ZMod.natCast_eq_natCast_iff'] at h0
      simpa [Nat.mod_eq_of_lt hlt, Nat.mod_eq_of_lt (show p - 1 < p by omega)] using h0
    have hm : (-1:Int) % 2 ^ b = 2 ^ b - 1 := by
      rw [← Int.add_mul_emod_self_right (-1) 1 (2 ^ b)]
      rw [one_mul]
      rw [Int.emod_eq_of_lt]
      · ring
      · rw [hpow]; have : (1:Int) < ((2 ^ b : Nat) : Int) := by exact_mod_cast h1b
        omega
      · omega
    have hw : wrap b (r + 2 ^ b - p) = 2 ^ b - 1 := by
      rw [this, show p - 1 + 2 ^ b - p = 2 ^ b - 1 by omega]
      exact Nat.mod_eq_of_lt (by omega)
    simp only [hm, show ((-1:Int) < 0) by norm_num, if_true, hw]
    have : ((2:Int) ^ b - 1).toNat = 2 ^ b - 1 := by rw [hpow]; omega
    simp [this]; rfl

theorem solovay_strassen_prime {b p : Nat} (rand : Nat → Nat) (hb : 2 ≤ b) (hp : p.Prime)
    (hodd : p ≠ 2) (hpb : p * p ≤ 2 ^ b) : solovay_strassen b p rand = .ok true := by
  unfold solovay_strassen
  generalize 100 = k
  induction k with
  | zero => rfl
  | succ k ih => simp [solovayLoop, solovay_strassen1_prime hb hp hodd hpb, ih]

end Quad.Arith
