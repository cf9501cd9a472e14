import Verif.Lemmas.FecGf2nRec
import Verif.Lemmas.FecFftBuild
import Verif.Lemmas.FecFftAddBuild
import Verif.Lemmas.FecNf4Buf
import Verif.Lemmas.FecVert

/-!
# Two objects built with the same parameters code alike, whatever memory held and whatever the word type
-/

namespace Quad
open Arith Spec Finset Polynomial

/-! ### encoders with the same symbols -/

/-- two codes with the same symbols and marks give the same streams -/
theorem Fec.same_encode {Γ Γ' : Type} {E : Fec Γ} {E' : Fec Γ'} {st st' : Array Nat → Nat → Nat} {mk mk' : Array Nat → Nat → Option Nat}
    {A A' : Array Nat → Prop} (H : E.HSpec st mk A) (H' : E'.HSpec st' mk' A') {w k n : Nat} (hw : E.base.word_size = w)
    (hw' : E'.base.word_size = w) (hk : E.base.n_data = k) (hk' : E'.base.n_data = k) (hn : E.base.n_outputs = n)
    (hn' : E'.base.n_outputs = n) (h : ∀ a f, IsRow w k a → f < n → st a f = st' a f ∧ mk a f = mk' a f)
    {data : Array (List Nat)} {T : Nat} (hd : Gf2nData w k data T) (mem mem' : Nat → Nat) :
    E.encode_streams_horizontal data (Array.replicate n []) (Array.replicate n .empty) mem =
      E'.encode_streams_horizontal data (Array.replicate n []) (Array.replicate n .empty) mem' := by
  obtain ⟨o, p, e, s1, s2, hf⟩ := Fec.encode_streams_horizontal_spec H (data := data) (outs := Array.replicate n [])
    (props := Array.replicate n .empty) (T := T) mem (by rw [hk]; exact hd.size) (by simp [hn]) (by simp [hn])
    (by rw [hk]; exact hd.bytes) (by rw [hk, hw]; exact ⟨hd.full, hd.last⟩)
  obtain ⟨o', p', e', s1', s2', hf'⟩ := Fec.encode_streams_horizontal_spec H' (data := data) (outs := Array.replicate n [])
    (props := Array.replicate n .empty) (T := T) mem' (by rw [hk']; exact hd.size) (by simp [hn']) (by simp [hn'])
    (by rw [hk']; exact hd.bytes) (by rw [hk', hw']; exact ⟨hd.full, hd.last⟩)
  rw [e, e']
  rw [hn, hk, hw] at hf
  rw [hn', hk', hw'] at hf'
  have hr := fun t => rowAt_isRow (w := w) (k := k) (D := gt data) hd.bytes t
  congr 2
  · refine gt_ext (by omega) (fun f hlt => ?_)
    have hlt' : f < n := by omega
    rw [(hf f hlt').1, (hf' f hlt').1]
    congr 1
    exact flat_congr fun t _ => (h _ f (hr t) hlt').1
  · refine gt_ext (by omega) (fun f hlt => ?_)
    have hlt' : f < n := by omega
    rw [(hf f hlt').2, (hf' f hlt').2]
    congr 1
    exact marksOf_congr fun t _ => (h _ f (hr t) hlt').2

/-! ### field objects -/

theorem RingModN.rootLoop_congr {exp exp' : Nat → Nat → Nat} {ds ds' : List Nat} : ∀ k nb,
    (∀ x, nb ≤ x → x < nb + k → noDivisorGivesOne exp x ds = noDivisorGivesOne exp' x ds') →
    rootLoop exp ds k nb = rootLoop exp' ds' k nb := by
  intro k
  induction k with
  | zero => intro _ _; rfl
  | succ k ih =>
    intro nb h
    unfold rootLoop
    rw [h nb le_rfl (by omega), ih (nb + 1) fun x h1 h2 => h x (by omega) (by omega)]

/-- the code length does not depend on the word type if the order of the group fits -/
theorem Arith.highCompoLoop_word {b b' n : Nat} (hn : 2 ≤ n) : ∀ (post pre : List Nat), (∀ f ∈ pre ++ post, 0 < f) →
    (pre ++ post).prod < 2 ^ b → (pre ++ post).prod < 2 ^ b' → pre.prod < n →
    highCompoLoop b n pre post pre.prod = highCompoLoop b' n pre post pre.prod := by
  intro post
  induction post with
  | nil => intros; rfl
  | cons f post ih =>
    intro pre hpos hb hb' hlt
    have heq : pre ++ f :: post = (pre ++ [f]) ++ post := by simp
    have hprodpre : pre.prod * f = (pre ++ [f]).prod := by simp
    have hpp : 0 < post.prod := list_prod_pos (fun g hg => hpos g (by simp [hg]))
    have hle : (pre ++ [f]).prod ≤ (pre ++ f :: post).prod := by
      rw [heq, List.prod_append (l₁ := pre ++ [f])]
      exact Nat.le_mul_of_pos_right _ hpp
    unfold highCompoLoop
    simp only [hprodpre, wrap_of_lt (lt_of_le_of_lt hle hb), wrap_of_lt (lt_of_le_of_lt hle hb')]
    split
    · rename_i h
      obtain ⟨r, suf, e, h1, h2, h3, h4⟩ := highCompoBack_spec hn (pre ++ [f]) _
        (fun g hg => hpos g (by
          rcases List.mem_append.1 hg with h | h
          · simp [h]
          · simp only [List.mem_singleton] at h; simp [h])) rfl h
      have hr : r ≤ (pre ++ f :: post).prod := by
        refine Nat.le_of_dvd (list_prod_pos hpos) ?_
        rw [h2, heq, List.prod_append (l₁ := pre ++ [f])]
        obtain ⟨s, hs⟩ := h1
        rw [← hs, List.prod_append]
        exact Dvd.dvd.mul_right (Dvd.intro_left _ rfl) _
      rw [e]
      simp only [wrap_of_lt (lt_of_le_of_lt hr hb), wrap_of_lt (lt_of_le_of_lt hr hb')]
    · exact ih (pre ++ [f]) (by rw [← heq]; exact hpos) (by rw [← heq]; exact hb) (by rw [← heq]; exact hb') (by omega)

theorem Arith.highCompo_word {b b' n N : Nat} (hn : 2 ≤ n) (h0 : N ≠ 0) (hb : N < 2 ^ b) (hb' : N < 2 ^ b') :
    get_code_len_high_compo_factors b N.primeFactorsList n = get_code_len_high_compo_factors b' N.primeFactorsList n := by
  have h := Nat.prod_primeFactorsList h0
  exact highCompoLoop_word hn N.primeFactorsList [] (fun f hf => (Nat.prime_of_mem_primeFactorsList (by simpa using hf)).pos)
    (by simpa [h] using hb) (by simpa [h] using hb') (by simp; omega)

namespace Interop

theorem bin_root {O : BinExt.Obj} {b n : Nat} (h : IsBinExt O b n) :
    O.F.find_primitive_root (get_proper_divisors_from (2 ^ n - 1) (O.factors.map Prod.fst)) = .ok O.root := by
  haveI := h.fact
  obtain ⟨_, B⟩ := h.isBinField
  obtain ⟨j, j3, e⟩ := h.built
  obtain ⟨F, _, e⟩ := bind_ok e
  unfold BinExt.init at e
  obtain ⟨fs, _, e⟩ := bind_ok e
  obtain ⟨root, er, e⟩ := bind_ok e
  cases e
  have hc := B.good.cardM1_eq
  simp only at hc
  rw [hc] at er
  exact er

/-- two objects of the same field have the same generator -/
theorem bin_root_eq {O O' : BinExt.Obj} {b b' n : Nat} (h : IsBinExt O b n) (h' : IsBinExt O' b' n) : O.root = O'.root := by
  haveI := h.fact
  obtain ⟨_, B⟩ := h.isBinField
  obtain ⟨_, B'⟩ := h'.isBinField
  have e := bin_root h
  have e' := bin_root h'
  unfold BinExt.find_primitive_root at e e'
  rw [B.good.cardM1_eq] at e
  rw [B'.good.cardM1_eq] at e'
  have hl : RingModN.rootLoop O.F.exp (get_proper_divisors_from (2 ^ n - 1) (O.factors.map Prod.fst)) (2 ^ n - 1 - 1) 2 =
      RingModN.rootLoop O'.F.exp (get_proper_divisors_from (2 ^ n - 1) (O'.factors.map Prod.fst)) (2 ^ n - 1 - 1) 2 := by
    refine RingModN.rootLoop_congr _ _ fun x h1 h2 => ?_
    rw [Bool.eq_iff_iff, B.good.noDivisor_iff B.factors (by omega) (by omega) (by omega),
      B'.good.noDivisor_iff B'.factors (by omega) (by omega) (by omega)]
  simp only at e e'
  rw [hl] at e
  exact Except.ok.inj (e.symm.trans e')

/-- they have the same roots of unity -/
theorem bin_nthRoot {O O' : BinExt.Obj} {b b' n : Nat} (h : IsBinExt O b n) (h' : IsBinExt O' b' n) (m : Nat) :
    O.gf.nthRoot m = O'.gf.nthRoot m := by
  haveI := h.fact
  obtain ⟨_, B⟩ := h.isBinField
  obtain ⟨_, B'⟩ := h'.isBinField
  show O.get_nth_root m = O'.get_nth_root m
  unfold BinExt.Obj.get_nth_root
  rw [gcd_eq, gcd_eq]
  simp only [ok_bind, B.good.cardM1_eq, B'.good.cardM1_eq]
  have hr := bin_root_eq h h'
  have e1 := B.good.exp_spec B.root_lt ((2 ^ n - 1) / Nat.gcd m (2 ^ n - 1))
  have e2 := B'.good.exp_spec B'.root_lt ((2 ^ n - 1) / Nat.gcd m (2 ^ n - 1))
  rw [B.good.H.inj e1.1 e2.1 (by rw [e1.2, e2.2, hr])]

/-- and the same code lengths -/
theorem bin_codeLen {O O' : BinExt.Obj} {b b' n : Nat} (h : IsBinExt O b n) (h' : IsBinExt O' b' n) {m : Nat} (hm : 2 ≤ m) :
    O.gf.codeLenHC m = O'.gf.codeLenHC m := by
  haveI := h.fact
  obtain ⟨hb, B⟩ := h.isBinField
  obtain ⟨hb', B'⟩ := h'.isBinField
  show O.get_code_len_high_compo m = O'.get_code_len_high_compo m
  unfold BinExt.Obj.get_code_len_high_compo
  have hpos := B.good.H.two_pow_pos
  have h1 := B.good.hb
  have h2 := B'.good.hb
  rw [B.good.cardM1_eq, B'.good.cardM1_eq, B.primes, B'.primes, factorList_eq B.factors, factorList_eq B'.factors]
  rw [highCompo_word (b := O.F.b) (b' := O'.F.b) hm (by omega)]
  · have := Nat.pow_le_pow_right (n := 2) (by omega) h1; omega
  · have := Nat.pow_le_pow_right (n := 2) (by omega) h2; omega

/-- they evaluate alike -/
theorem bin_dft {O O' : BinExt.Obj} {b b' n : Nat} (h : IsBinExt O b n) (h' : IsBinExt O' b' n) {r : Nat} (hr : r < 2 ^ n) {a : Array Nat}
    (ha : ∀ j, j < a.size → gt a j < 2 ^ n) (f : Nat) : dftAt O.gf r a f = dftAt O'.gf r a f := by
  haveI := h.fact
  obtain ⟨_, B⟩ := h.isBinField
  obtain ⟨_, B'⟩ := h'.isBinField
  have e1 := dftAt_sem (S := B.sim) (w := r) hr (x := a) ha f
  have e2 := dftAt_sem (S := B'.sim) (w := r) hr (x := a) ha f
  exact B.good.H.inj e1.1 e2.1 (e1.2.trans e2.2.symm)

/-! ### matrix codes -/

theorem mem_of_gf2n {w : Nat} (hw : w ∈ [1, 2, 4, 8, 16]) : WordSize w ∧ w ≤ 16 := by
  simp only [List.mem_cons, List.not_mem_nil, or_false] at hw
  unfold WordSize
  omega

/-- the matrix of a matrix code in the field of `2 ^ (8 w)` elements -/
noncomputable def matVal (w k m : Nat) (type : RsGf2n.MatType) [Fact (Irreducible (binPoly (8 * w) (BinExt.lowOf (8 * w))))]
    (g : Nat → Nat → BinK (8 * w)) : Prop :=
  match type with
  | .cauchy => ∀ i j, i < m → j < k → g i j = if i = 0 ∨ j = 0 then 1 else (bev (binR (8 * w)) i + bev (binR (8 * w)) (j + m))⁻¹
  | .vandermonde => ∃ p : Nat → (BinK (8 * w))[X], (∀ j, j < k → (p j).degree < k ∧
      ∀ t, t < k → (p j).eval (bev (binR (8 * w)) t) = if t = j then 1 else 0) ∧
      ∀ i j, i < m → j < k → g i j = (p j).eval (bev (binR (8 * w)) (k + i))

open Mat in
theorem gf2n_build {b w k m : Nat} (h : Gf2nParams b w k m) (type : RsGf2n.MatType) (mem : Nat → Nat) (junk : Nat → Nat → Nat)
    (junk3 : Nat → Nat → Nat → Nat) :
    haveI := fact_of (size_of h.field.size)
    ∃ (O : BinExt.Obj) (B : BinExt.IsBinField O (8 * w) (BinExt.lowOf (8 * w)) (BinK (8 * w)) (binR (8 * w)))
      (mat : Mat) (f : Nat → Nat → Nat), RsGf2n.mk' b w k m type mem junk junk3 = .ok (RsGf2n.fec O.gf w k m mat) ∧
      Is mat m k f ∧ (∀ i j, i < m → j < k → B.sim.V (f i j)) ∧ matVal w k m type (fun i j => bev (binR (8 * w)) (f i j)) := by
  haveI := fact_of (size_of h.field.size)
  obtain ⟨_, hw⟩ := mem_of_gf2n h.hw
  have hlen := h.len
  obtain ⟨O, e, _, B⟩ := exists_binExt h.field junk junk3
  have hV : ∀ t, t < m + k → B.sim.V t := fun t ht => show t < 2 ^ (8 * w) by omega
  have hne : ∀ i j, i < m → j < k → B.sim.φ i + B.sim.φ (j + m) ≠ 0 := fun i j hi hj => RsGf2n.bin_ne B hlen hi hj
  have hmk' : ∀ mat, (match type with
      | .cauchy => (Mat.mk' m k mem).cauchy O.gf
      | .vandermonde => (Mat.mk' m k mem).vandermonde_suitable_for_ec O.gf mem) = .ok mat →
      RsGf2n.mk' b w k m type mem junk junk3 = .ok (RsGf2n.fec O.gf w k m mat) := by
    intro mat hmat
    unfold RsGf2n.mk' RsGf2n.mkObj cassert
    simp only [hw, decide_true, if_true, ok_bind]
    rw [← bind_assoc (BinExt.mk' _ _ _ _), e, ok_bind]
    cases type
    · simp only at hmat ⊢
      rw [hmat]; rfl
    · simp only at hmat ⊢
      rw [hmat]; rfl
  cases type with
  | vandermonde =>
    obtain ⟨M, f, e1, i1, v1, p, hp, hf⟩ := vandermonde_ec_spec B.full (mk'_is m k mem) hV mem
    exact ⟨O, B, M, f, hmk' M e1, i1, v1, p, hp, hf⟩
  | cauchy =>
    obtain ⟨M, f, e1, i1, v1, hf⟩ := cauchy_spec B.full (mk'_is m k mem) hV hne
    exact ⟨O, B, M, f, hmk' M e1, i1, v1, hf⟩

theorem matVal_unique {w k m : Nat} (hlen : k + m ≤ 2 ^ (8 * w)) {type : RsGf2n.MatType} (hs : BinExt.Size (8 * w))
    [Fact (Irreducible (binPoly (8 * w) (BinExt.lowOf (8 * w))))] {g g' : Nat → Nat → BinK (8 * w)}
    (h : matVal w k m type g) (h' : matVal w k m type g') {i j : Nat} (hi : i < m) (hj : j < k) : g i j = g' i j := by
  cases type with
  | cauchy => rw [h i j hi hj, h' i j hi hj]
  | vandermonde =>
    obtain ⟨p, hp, hg⟩ := h
    obtain ⟨p', hp', hg'⟩ := h'
    rw [hg i j hi hj, hg' i j hi hj]
    congr 1
    have hinj : Set.InjOn (fun t : Nat => bev (binR (8 * w)) t) (range k) := by
      intro s hs' t ht e
      simp only [coe_range, Set.mem_Iio] at hs' ht
      exact (binField_of hs).inj (by omega) (by omega) e
    refine Polynomial.eq_of_degree_sub_lt_of_eval_index_eq (s := range k) hinj ?_ ?_
    · rw [card_range]
      exact lt_of_le_of_lt (degree_sub_le _ _) (max_lt (hp j hj).1 (hp' j hj).1)
    · intro t ht
      have ht := mem_range.mp ht
      rw [(hp j hj).2 t ht, (hp' j hj).2 t ht]

/-- two matrix codes with the same parameters code alike -/
theorem gf2n_same {b b' w k m : Nat} (h : Gf2nParams b w k m) (h' : Gf2nParams b' w k m) (type : RsGf2n.MatType)
    {mem mem' : Nat → Nat} {junk junk' : Nat → Nat → Nat} {junk3 junk3' : Nat → Nat → Nat → Nat} {E E' : Fec Mat}
    (e : RsGf2n.mk' b w k m type mem junk junk3 = .ok E) (e' : RsGf2n.mk' b' w k m type mem' junk' junk3' = .ok E')
    {data : Array (List Nat)} {T : Nat} (hd : Gf2nData w k data T) (me me' : Nat → Nat) :
    E.encode_streams_horizontal data (Array.replicate m []) (Array.replicate m .empty) me =
      E'.encode_streams_horizontal data (Array.replicate m []) (Array.replicate m .empty) me' := by
  haveI := fact_of (size_of h.field.size)
  obtain ⟨hws, _⟩ := mem_of_gf2n h.hw
  obtain ⟨O, B, mat, f, e1, i1, v1, q1⟩ := gf2n_build h type mem junk junk3
  obtain ⟨O', B', mat', f', e2, i2, v2, q2⟩ := gf2n_build h' type mem' junk' junk3'
  rw [e] at e1
  rw [e'] at e2
  cases e1
  cases e2
  have hval : ∀ a, a < 2 ^ (8 * w) ↔ a < 256 ^ w := fun a => by rw [Nat.pow_mul]
  refine Fec.same_encode (RsGf2n.hspec B.full hws hval h.hk i1 v1) (RsGf2n.hspec B'.full hws hval h.hk i2 v2)
    rfl rfl rfl rfl rfl rfl ?_ hd me me'
  intro a g ha hg
  refine ⟨?_, rfl⟩
  have hv : ∀ j, j < k → gt a j < 2 ^ (8 * w) := fun j hj => (hval _).mpr (ha.2 j hj)
  have s1 := RsGf2n.stored_spec (S := B.sim) h.hk i1 v1 ha.1 hv hg
  have s2 := RsGf2n.stored_spec (S := B'.sim) h.hk i2 v2 ha.1 hv hg
  refine B.good.H.inj s1.1 s2.1 (s1.2.trans (Eq.trans ?_ s2.2.symm))
  refine sum_congr rfl fun j hj => ?_
  show bev _ (f g j) * _ = bev _ (f' g j) * _
  rw [matVal_unique h.len (size_of h.field.size) q1 q2 hg (mem_range.mp hj)]
  rfl

/-! ### codes on the multiplicative transform -/

theorem fft_build {b w k m : Nat} {mem : Nat → Nat} {junk : Nat → Nat → Nat} {junk3 : Nat → Nat → Nat → Nat} (h : Gf2nFftParams b w k m)
    {B : FecBase} (e : RsGf2nFft.mkBase b w k m mem junk junk3 = .ok B) :
    ∃ O, IsBinExt O b (8 * w) ∧ B.F = O.gf ∧ O.gf.codeLenHC (m + k) = .ok B.n ∧ O.gf.nthRoot B.n = .ok B.r := by
  unfold RsGf2nFft.mkBase at e
  obtain ⟨_, _, e⟩ := bind_ok e
  obtain ⟨F, e1, e⟩ := bind_ok e
  obtain ⟨O, e2, e⟩ := bind_ok e
  obtain ⟨n, en, e⟩ := bind_ok e
  obtain ⟨r, er, e⟩ := bind_ok e
  obtain ⟨_, _, e⟩ := bind_ok e
  obtain ⟨_, _, e⟩ := bind_ok e
  obtain ⟨_, _, e⟩ := bind_ok e
  obtain ⟨_, _, e⟩ := bind_ok e
  obtain ⟨_, _, e⟩ := bind_ok e
  obtain ⟨_, _, e⟩ := bind_ok e
  cases e
  exact ⟨O, ⟨h.field, junk, junk3, by rw [e1, ok_bind, e2]⟩, rfl, en, er⟩

/-- two codes on the multiplicative transform with the same parameters code alike -/
theorem fft_same {b b' w k m : Nat} (h : Gf2nFftParams b w k m) (h' : Gf2nFftParams b' w k m)
    {mem mem' : Nat → Nat} {junk junk' : Nat → Nat → Nat} {junk3 junk3' : Nat → Nat → Nat → Nat} {B B' : FecBase}
    (e : RsGf2nFft.mkBase b w k m mem junk junk3 = .ok B) (e' : RsGf2nFft.mkBase b' w k m mem' junk' junk3' = .ok B')
    {data : Array (List Nat)} {T : Nat} (hd : Gf2nData w k data T) (me me' : Nat → Nat) :
    (RsGf2nFft.fec B).encode_streams_horizontal data (Array.replicate (k + m) []) (Array.replicate (k + m) .empty) me =
      (RsGf2nFft.fec B').encode_streams_horizontal data (Array.replicate (k + m) []) (Array.replicate (k + m) .empty) me' := by
  obtain ⟨K, _, B1, S, n, l2, g2, e1, hw1, G⟩ := RsGf2nFft.mkBase_spec h mem junk junk3
  obtain ⟨K', _, B2, S', n', l2', g2', e2, hw2, G'⟩ := RsGf2nFft.mkBase_spec h' mem' junk' junk3'
  have hh := e1.symm.trans e
  cases hh
  have hh := e2.symm.trans e'
  cases hh
  obtain ⟨O, hO, hF, hn, hr⟩ := fft_build h e
  obtain ⟨O', hO', hF', hn', hr'⟩ := fft_build h' e'
  have hk := h.hk
  have hm := h.hm
  rw [← bin_codeLen hO hO' (by omega), hn] at hn'
  have hnn := Except.ok.inj hn'
  rw [← bin_nthRoot hO hO', ← hnn, hr] at hr'
  have hrr := Except.ok.inj hr'
  haveI := hO.fact
  obtain ⟨_, BF⟩ := hO.isBinField
  obtain ⟨r0, er0, r0lt, _⟩ := BF.get_nth_root_spec B.n
  have hrlt : B.r < 2 ^ (8 * w) := by
    have : O.gf.nthRoot B.n = .ok r0 := er0
    rw [hr] at this
    rw [Except.ok.inj this]; exact r0lt
  have hsym : ∀ a f, IsRow w k a → FftCode.sym B a f = FftCode.sym B' a f := by
    intro a f ha
    unfold FftCode.sym
    rw [hF, hF', ← hrr]
    exact bin_dft hO hO' hrlt (fun j hj => by rw [Nat.pow_mul]; exact ha.2 j (by rw [← ha.1]; exact hj)) f
  have H := FftCode.hspec G (RsGf2nFft.is_fec B) (RsGf2nFft.post_spec B _) (RsGf2nFft.prep_spec B _)
  have H' := FftCode.hspec G' (RsGf2nFft.is_fec B') (RsGf2nFft.post_spec B' _) (RsGf2nFft.prep_spec B' _)
  refine Fec.same_encode H H' hw1 hw2 G.n_data G'.n_data G.n_outputs G'.n_outputs ?_ hd me me'
  intro a f ha _
  unfold FftCode.stored FftCode.markOf
  rw [hsym a f ha]
  exact ⟨rfl, rfl⟩

/-! ### codes over prime fields -/

theorem prime_root_eq {O O' : RingModN.Obj} {p : Nat} (h : RingModN.IsPrimeField O p) (h' : RingModN.IsPrimeField O' p) (h3 : p ≠ 3) :
    O.root = O'.root := by
  have key : ∀ {O : RingModN.Obj}, RingModN.IsPrimeField O p →
      O.ring.find_primitive_root 0 (get_proper_divisors_from (p - 1) (O.factors.map Prod.fst)) = .ok O.root := by
    intro O h
    have e := h.built
    unfold RingModN.init at e
    obtain ⟨fs, _, e⟩ := bind_ok e
    obtain ⟨root, er, e⟩ := bind_ok e
    have e := Except.ok.inj e
    have h1 : O.factors = fs := by rw [← e]
    have h2 : O.root = root := by rw [← e]
    unfold RingModN.cardM1 at er
    rw [h.card, ← h1, ← h2] at er
    exact er
  have e := key h
  have e' := key h'
  have h2 := h.prime.two_le
  unfold RingModN.find_primitive_root at e e'
  have hc : O.ring.cardM1 = p - 1 := by unfold RingModN.cardM1; rw [h.card]
  have hc' : O'.ring.cardM1 = p - 1 := by unfold RingModN.cardM1; rw [h'.card]
  rw [if_neg (by simp)] at e e'
  simp only [hc] at e
  simp only [hc'] at e'
  have hl : RingModN.rootLoop O.ring.exp (get_proper_divisors_from (p - 1) (O.factors.map Prod.fst)) (p - 1 - 1) 2 =
      RingModN.rootLoop O'.ring.exp (get_proper_divisors_from (p - 1) (O'.factors.map Prod.fst)) (p - 1 - 1) 2 := by
    refine RingModN.rootLoop_congr _ _ fun x h1 hx => ?_
    have i1 := RingModN.noDivisor_iff (fs := O.factors) h.fits (by rw [h.card]; exact h.prime) (by rw [h.card]; exact h.spec.1)
      (by rw [h.card]; exact h3) (x := x) (by rw [h.card]; omega) (by omega)
    have i2 := RingModN.noDivisor_iff (fs := O'.factors) h'.fits (by rw [h'.card]; exact h'.prime) (by rw [h'.card]; exact h'.spec.1)
      (by rw [h'.card]; exact h3) (x := x) (by rw [h'.card]; omega) (by omega)
    rw [h.card] at i1
    rw [h'.card] at i2
    rw [Bool.eq_iff_iff, i1, i2]
  rw [hl] at e
  exact Except.ok.inj (e.symm.trans e')

theorem prime_nthRoot {O O' : RingModN.Obj} {p : Nat} (h : RingModN.IsPrimeField O p) (h' : RingModN.IsPrimeField O' p) (h3 : p ≠ 3)
    (m : Nat) : O.gf.nthRoot m = O'.gf.nthRoot m := by
  show O.get_nth_root m = O'.get_nth_root m
  unfold RingModN.Obj.get_nth_root
  rw [gcd_eq, gcd_eq]
  have hc : O.ring.cardM1 = p - 1 := by unfold RingModN.cardM1; rw [h.card]
  have hc' : O'.ring.cardM1 = p - 1 := by unfold RingModN.cardM1; rw [h'.card]
  have hr := h.spec.2.2.2.2.1
  have hr' := h'.spec.2.2.2.2.1
  simp only [ok_bind, hc, hc']
  rw [RingModN.exp_eq h.fits (by rw [h.card]; exact hr), RingModN.exp_eq h'.fits (by rw [h'.card]; exact hr'), h.card, h'.card,
    prime_root_eq h h' h3]

theorem prime_codeLen {O O' : RingModN.Obj} {p : Nat} (h : RingModN.IsPrimeField O p) (h' : RingModN.IsPrimeField O' p) {m : Nat} (hm : 2 ≤ m) :
    O.gf.codeLenHC m = O'.gf.codeLenHC m := by
  show O.get_code_len_high_compo m = O'.get_code_len_high_compo m
  unfold RingModN.Obj.get_code_len_high_compo
  have hc : O.ring.cardM1 = p - 1 := by unfold RingModN.cardM1; rw [h.card]
  have hc' : O'.ring.cardM1 = p - 1 := by unfold RingModN.cardM1; rw [h'.card]
  have h1 := h.fits.spare
  have h2 := h'.fits.spare
  rw [h.card] at h1
  rw [h'.card] at h2
  have hp := h.prime.two_le
  rw [hc, hc', h.spec.2.1, h'.spec.2.1, factorList_eq h.spec.1, factorList_eq h'.spec.1]
  rw [highCompo_word (b := O.ring.b) (b' := O'.ring.b) hm (by omega) (by omega) (by omega)]

theorem prime_dft {O O' : RingModN.Obj} {p : Nat} (h : RingModN.IsPrimeField O p) (h' : RingModN.IsPrimeField O' p) {r : Nat} (hr : r < p)
    {a : Array Nat} (ha : ∀ j, j < a.size → gt a j < p) (f : Nat) : dftAt O.gf r a f = dftAt O'.gf r a f := by
  haveI := Fact.mk h.prime
  have e1 := dftAt_sem (S := h.sim) (w := r) hr (x := a) ha f
  have e2 := dftAt_sem (S := h'.sim) (w := r) hr (x := a) ha f
  exact RingModN.cast_inj e1.1 e2.1 (e1.2.trans e2.2.symm)

theorem gfp_build {b db w k m : Nat} {mem : Nat → Nat} (h : GfpParams b db w k m) {c : FecBase × Nat}
    (e : RsGfpFft.mkBase b db w k m mem = .ok c) :
    ∃ O, RingModN.IsPrimeField O (if w = 4 then 4294991873 else 2 ^ (8 * w) + 1) ∧ c.1.F = O.gf ∧ O.gf.codeLenHC (m + k) = .ok c.1.n ∧
      O.gf.nthRoot c.1.n = .ok c.1.r ∧ c.2 = 256 ^ w := by
  have hw : ((w = 1 ∨ w = 2) ∧ (b = 32 ∧ db = 64 ∨ b = 64 ∧ db = 128)) ∨ (w = 4 ∧ b = 64 ∧ db = 128) := by
    rcases h.word with ⟨h1, h2, _⟩ | ⟨h1, h2, h3, _⟩
    · exact .inl ⟨h1, h2⟩
    · exact .inr ⟨h1, h2, h3⟩
  obtain ⟨p, O, H, _, _, _, _, e1, e2, _⟩ := RsGfpFft.init_gf hw
  have hp : p = if w = 4 then 4294991873 else 2 ^ (8 * w) + 1 := by
    have : RsGfpFft.params b w = .ok (if w = 4 then 4294991873 else 2 ^ (8 * w) + 1, 256 ^ w) := by
      rcases hw with ⟨rfl | rfl, ⟨rfl, rfl⟩ | ⟨rfl, rfl⟩⟩ | ⟨rfl, rfl, rfl⟩ <;> rfl
    rw [e1] at this
    exact congrArg Prod.fst (Except.ok.inj this)
  rw [← hp]
  unfold RsGfpFft.mkBase at e
  rw [e1, ok_bind] at e
  simp only at e
  obtain ⟨_, _, e⟩ := bind_ok e
  obtain ⟨_, _, e⟩ := bind_ok e
  rw [e2, ok_bind] at e
  obtain ⟨_, _, e⟩ := bind_ok e
  obtain ⟨_, _, e⟩ := bind_ok e
  obtain ⟨n, en, e⟩ := bind_ok e
  obtain ⟨r, er, e⟩ := bind_ok e
  obtain ⟨_, _, e⟩ := bind_ok e
  obtain ⟨_, _, e⟩ := bind_ok e
  obtain ⟨_, _, e⟩ := bind_ok e
  obtain ⟨_, _, e⟩ := bind_ok e
  obtain ⟨_, _, e⟩ := bind_ok e
  obtain ⟨_, _, e⟩ := bind_ok e
  cases e
  exact ⟨O, H, rfl, en, er, rfl⟩

/-- two codes over prime fields with the same parameters code alike -/
theorem gfp_same {b db b' db' w k m : Nat} (h : GfpParams b db w k m) (h' : GfpParams b' db' w k m) {mem mem' : Nat → Nat}
    {c c' : FecBase × Nat} (e : RsGfpFft.mkBase b db w k m mem = .ok c) (e' : RsGfpFft.mkBase b' db' w k m mem' = .ok c')
    {data : Array (List Nat)} {T : Nat} (hd : Gf2nData w k data T) (me me' : Nat → Nat) :
    (RsGfpFft.fec b c).encode_streams_horizontal data (Array.replicate (k + m) []) (Array.replicate (k + m) .empty) me =
      (RsGfpFft.fec b' c').encode_streams_horizontal data (Array.replicate (k + m) []) (Array.replicate (k + m) .empty) me' := by
  obtain ⟨p, _, B1, S, n, l2, g2, e1, hw1, hp, G⟩ := RsGfpFft.mkBase_spec h mem
  obtain ⟨p', _, B2, S', n', l2', g2', e2, hw2, hp', G'⟩ := RsGfpFft.mkBase_spec h' mem'
  have hh := e1.symm.trans e
  cases hh
  have hh := e2.symm.trans e'
  cases hh
  obtain ⟨O, hO, hF, hn, hr, _⟩ := gfp_build h e
  obtain ⟨O', hO', hF', hn', hr', _⟩ := gfp_build h' e'
  have hk := h.hk
  have hm := h.hm
  have hw : w = 1 ∨ w = 2 ∨ w = 4 := by rcases h.word with ⟨h1, _⟩ | ⟨h1, _⟩ <;> omega
  set P := if w = 4 then 4294991873 else 2 ^ (8 * w) + 1 with hP
  have hP3 : P ≠ 3 ∧ 256 ^ w ≤ P := by rcases hw with rfl | rfl | rfl <;> norm_num [hP]
  simp only at hF hF' hn hn' hr hr'
  rw [← prime_codeLen hO hO' (by omega), hn] at hn'
  have hnn := Except.ok.inj hn'
  rw [← prime_nthRoot hO hO' hP3.1, ← hnn, hr] at hr'
  have hrr := Except.ok.inj hr'
  obtain ⟨r0, er0, r0lt, _⟩ := hO.get_nth_root_spec B1.n
  have hrlt : B1.r < P := by
    have : O.gf.nthRoot B1.n = .ok r0 := er0
    rw [hr] at this
    rw [Except.ok.inj this]; exact r0lt
  have hsym : ∀ a f, IsRow w k a → FftCode.sym B1 a f = FftCode.sym B2 a f := by
    intro a f ha
    unfold FftCode.sym
    rw [hF, hF', ← hrr]
    exact prime_dft hO hO' hrlt (fun j hj => lt_of_lt_of_le (ha.2 j (by rw [← ha.1]; exact hj)) hP3.2) f
  have H := FftCode.hspec G (RsGfpFft.is_fec b (B1, 256 ^ w)) (RsGfpFft.post_spec (by positivity) (G.code_len.trans G.n_outputs.symm))
    (RsGfpFft.prep_spec hp)
  have H' := FftCode.hspec G' (RsGfpFft.is_fec b' (B2, 256 ^ w)) (RsGfpFft.post_spec (by positivity) (G'.code_len.trans G'.n_outputs.symm))
    (RsGfpFft.prep_spec hp')
  refine Fec.same_encode H H' hw1 hw2 G.n_data G'.n_data G.n_outputs G'.n_outputs ?_ hd me me'
  intro a f ha _
  unfold FftCode.stored FftCode.markOf
  rw [hsym a f ha]
  exact ⟨rfl, rfl⟩

/-! ### the code on the additive transform -/

theorem add_build {b w k m : Nat} {mem : Nat → Nat} {junk : Nat → Nat → Nat} {junk3 : Nat → Nat → Nat → Nat} (h : Gf2nFftAddParams b w k m)
    {c : RsGf2nFftAdd.Code} (e : RsGf2nFftAdd.mkCode b w k m mem junk junk3 = .ok c) :
    ∃ O, IsBinExt O b (8 * w) ∧ c.base.F = O.gf ∧ ∃ d, k + m ≤ 2 ^ d ∧ (∀ d', k + m ≤ 2 ^ d' → 2 ^ d ≤ 2 ^ d') ∧
      c.betas = Array.ofFn (n := 2 ^ d) fun i => spanPoint (powerBasis O.gf O.root d) i := by
  have hk := h.hk
  have hm := h.hm
  have hlen := h.len
  have hint := h.int
  have hw : 1 ≤ w ∧ (w ≤ 2 ∨ 4 ≤ w) := by have := h.hw; simp at this; omega
  obtain ⟨hw1, hw4⟩ := hw
  obtain ⟨d, hd⟩ := h.field.bytes
  have hroom := h.field.room
  have hspare := h.field.spare
  have hsum : k + m < 2 ^ (b - 1) := by
    by_cases hw2 : w ≤ 2
    · calc k + m ≤ 2 ^ (8 * w) := hlen
        _ < 2 ^ (b - 1) := Nat.pow_lt_pow_right (by omega) (by omega)
    · calc k + m ≤ 2 ^ 30 := hint
        _ < 2 ^ (b - 1) := Nat.pow_lt_pow_right (by omega) (by omega)
  obtain ⟨e2, ec, hle, hmin⟩ := Arith.ceil2_spec (b := b) (n := k + m) (by omega) hsum
  have he8 : e2 ≤ 8 * w := (Nat.pow_le_pow_iff_right (by omega : 1 < 2)).1 (hmin _ hlen)
  have heb : e2 < b := by
    by_cases hw2 : w ≤ 2
    · omega
    · have := (Nat.pow_le_pow_iff_right (by omega : 1 < 2)).1 (hmin _ hint)
      omega
  have he1 : 1 ≤ e2 := by
    by_contra hc
    have : e2 = 0 := by omega
    subst this
    norm_num at hle
    omega
  have hlog : Arith.log2 ((2 ^ e2 : Nat) : Int) = .ok e2 := by
    rw [Arith.log2_eq (by positivity), Nat.log_pow (by omega)]
  unfold RsGf2nFftAdd.mkCode at e
  obtain ⟨_, _, e⟩ := bind_ok e
  obtain ⟨F, e1, e⟩ := bind_ok e
  obtain ⟨O, eO, e⟩ := bind_ok e
  have hO : IsBinExt O b (8 * w) := ⟨h.field, junk, junk3, by rw [e1, ok_bind, eO]⟩
  obtain ⟨hvec, hind, Ls, eL, nL, hB, hft⟩ := Props.C21_default_basis hO he1 he8 heb mem
  simp only at e
  rw [ec, ok_bind, hlog, ok_bind, eL, ok_bind] at e
  rw [hB _ (by simp), ok_bind] at e
  cases e
  exact ⟨O, hO, rfl, e2, hle, hmin, rfl⟩

/-- two codes on the additive transform with the same parameters code alike -/
theorem add_same {b b' w k m : Nat} (h : Gf2nFftAddParams b w k m) (h' : Gf2nFftAddParams b' w k m) (h2 : 2 * k < 2 ^ (8 * w))
    {mem mem' : Nat → Nat} {junk junk' : Nat → Nat → Nat} {junk3 junk3' : Nat → Nat → Nat → Nat} {c c' : RsGf2nFftAdd.Code}
    (e : RsGf2nFftAdd.mkCode b w k m mem junk junk3 = .ok c) (e' : RsGf2nFftAdd.mkCode b' w k m mem' junk' junk3' = .ok c')
    {data : Array (List Nat)} {T : Nat} (hd : Gf2nData w k data T) (me me' : Nat → Nat) :
    (RsGf2nFftAdd.fec c).encode_streams_horizontal data (Array.replicate (k + m) []) (Array.replicate (k + m) .empty) me =
      (RsGf2nFftAdd.fec c').encode_streams_horizontal data (Array.replicate (k + m) []) (Array.replicate (k + m) .empty) me' := by
  obtain ⟨K, _, c1, S, n, pt, e1, G, hl, _⟩ := RsGf2nFftAdd.mkCode_spec h mem junk junk3
  obtain ⟨K', _, c2, S', n', pt', e2, G', hl', _⟩ := RsGf2nFftAdd.mkCode_spec h' mem' junk' junk3'
  have hh := e1.symm.trans e
  cases hh
  have hh := e2.symm.trans e'
  cases hh
  obtain ⟨O, hO, hF, d, d1, d2, hb⟩ := add_build h e
  obtain ⟨O', hO', hF', d', d1', d2', hb'⟩ := add_build h' e'
  have hdd : d = d' := Nat.pow_right_injective (le_refl 2) (le_antisymm (d2 _ d1') (d2' _ d1))
  subst hdd
  haveI := hO.fact
  obtain ⟨_, BF⟩ := hO.isBinField
  obtain ⟨_, BF'⟩ := hO'.isBinField
  have hbas : powerBasis O.gf O.root d = powerBasis O'.gf O'.root d := by
    unfold powerBasis
    congr 1
    funext j
    split
    · rfl
    · have e1 := BF.good.exp_spec BF.root_lt (j + 1)
      have e2 := BF'.good.exp_spec BF'.root_lt (j + 1)
      exact BF.good.H.inj e1.1 e2.1 (e1.2.trans (by rw [bin_root_eq hO hO']; exact e2.2.symm))
  have hbet : c.betas = c'.betas := by rw [hb, hb', hbas]
  refine Fec.same_encode (RsGf2nFftAdd.hspec G (hl h2)) (RsGf2nFftAdd.hspec G' (hl' h2)) G.word G'.word G.n_data G'.n_data
    G.n_outputs G'.n_outputs ?_ hd me me'
  intro a f ha hf
  refine ⟨?_, rfl⟩
  unfold RsGf2nFftAdd.sym
  rw [hF, hF', ← hbet]
  have hV : ∀ j, gt a j < 2 ^ (8 * w) := fun j => by
    by_cases hj : j < k
    · rw [Nat.pow_mul]; exact ha.2 j hj
    · rw [gt_oob (by rw [ha.1]; omega)]; positivity
  have hy : gt c.betas f < 2 ^ (8 * w) := by
    have := (G.val _).mp (G.bet f (by have := G.le; omega)).1
    rwa [Nat.pow_mul]
  have s1 := Additive.evalAt_sem (S := BF.sim) (x := a) (y := gt c.betas f) hV hy
  have s2 := Additive.evalAt_sem (S := BF'.sim) (x := a) (y := gt c.betas f) hV hy
  exact BF.good.H.inj s1.1 s2.1 (s1.2.trans s2.2.symm)

/-! ### the code on packed words -/

theorem nf4_build {b w k m pkt : Nat} {simd : Option (Nat × (Nat → Nat))} (h : Nf4Params b simd w k m) {mem : Nat → Nat} {c : RsNf4.Code}
    (e : RsNf4.mkCode b simd w k m pkt mem = .ok c) :
    IsNf4 c.N b (w / 2) simd ∧ c.N.sub_field.gf.codeLenHC (m + k) = .ok c.base.n ∧
      c.N.get_nth_root c.base.n = .ok c.base.r := by
  unfold RsNf4.mkCode at e
  obtain ⟨_, _, e⟩ := bind_ok e
  obtain ⟨_, _, e⟩ := bind_ok e
  simp only at e
  obtain ⟨N, eN, e⟩ := bind_ok e
  obtain ⟨O, eO, e⟩ := bind_ok e
  obtain ⟨n, en, e⟩ := bind_ok e
  obtain ⟨r, er, e⟩ := bind_ok e
  obtain ⟨_, _, e⟩ := bind_ok e
  obtain ⟨_, _, e⟩ := bind_ok e
  obtain ⟨_, _, e⟩ := bind_ok e
  obtain ⟨_, _, e⟩ := bind_ok e
  obtain ⟨_, _, e⟩ := bind_ok e
  obtain ⟨_, _, e⟩ := bind_ok e
  obtain ⟨_, _, e⟩ := bind_ok e
  cases e
  have H : IsNf4 N b (w / 2) simd := ⟨h.build, eN⟩
  refine ⟨H, en, ?_⟩
  have hN := (H.init_factors eO).1
  rw [← hN]
  exact er

/-- two codes on packed words with the same parameters code alike, whatever the build and the word type -/
theorem nf4_same {b b' w k m pkt pkt' : Nat} {simd simd' : Option (Nat × (Nat → Nat))} (h : Nf4Params b simd w k m)
    (h' : Nf4Params b' simd' w k m) {mem mem' : Nat → Nat} {c c' : RsNf4.Code} (e : RsNf4.mkCode b simd w k m pkt mem = .ok c)
    (e' : RsNf4.mkCode b' simd' w k m pkt' mem' = .ok c') {data : Array (List Nat)} {T : Nat} (hd : Gf2nData w k data T) (me me' : Nat → Nat) :
    (RsNf4.fec c).encode_streams_horizontal data (Array.replicate (k + m) []) (Array.replicate (k + m) .empty) me =
      (RsNf4.fec c').encode_streams_horizontal data (Array.replicate (k + m) []) (Array.replicate (k + m) .empty) me' := by
  obtain ⟨c1, e1, hw1, S, n, l2, g, g2, okLen, G⟩ := RsNf4.mkCode_spec (pkt := pkt) h mem
  obtain ⟨c2, e2, hw2, S', n', l2', g', g2', okLen', G'⟩ := RsNf4.mkCode_spec (pkt := pkt') h' mem'
  have hh := e1.symm.trans e
  cases hh
  have hh := e2.symm.trans e'
  cases hh
  obtain ⟨N1, en, er⟩ := nf4_build h e
  obtain ⟨N2, en', er'⟩ := nf4_build h' e'
  obtain ⟨F0, hF0, hsub⟩ := RsNf4Obj.sub_field_eq
  rw [hsub N1] at en
  rw [hsub N2, en] at en'
  have hnn := Except.ok.inj en'
  unfold NF4.get_nth_root at er er'
  rw [hsub N1] at er
  rw [hsub N2, ← hnn] at er'
  obtain ⟨s, es, er⟩ := bind_ok er
  rw [es, ok_bind] at er'
  have hr := Except.ok.inj er
  have hr' := Except.ok.inj er'
  obtain ⟨s0, es0, hs0, _⟩ := hF0.get_nth_root_spec (wrap 32 c.base.n)
  rw [es] at es0
  have hs : s < 65537 := by rw [Except.ok.inj es0]; exact hs0
  have hpos := h.build.pos
  have hg : g = g' := by
    have a1 := (G.r ⟨0, hpos⟩).2
    have a2 := (G'.r ⟨0, hpos⟩).2
    rw [G.φ, ← hr, (Props.C15_replicate N1 hs).2 0 hpos] at a1
    rw [G'.φ, ← hr', (Props.C15_replicate N2 hs).2 0 hpos] at a2
    rw [← a1, ← a2]
  subst hg
  have H := RsNf4.hspec G
  have H' := RsNf4.hspec G'
  refine Fec.same_encode H H' hw1 hw2 G.n_data G'.n_data G.n_outputs G'.n_outputs ?_ hd me me'
  intro a f _ _
  unfold RsNf4.stored RsNf4.markOf
  have hp := (RsNf4.sym_packed (w / 2) g a f).1
  rw [N1.unpack_eq hp, N2.unpack_eq hp]
  exact ⟨rfl, rfl⟩

end Interop
end Quad
