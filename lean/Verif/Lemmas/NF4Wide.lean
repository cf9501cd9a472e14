import Verif.Lemmas.NF4Obj

/-!
The lanes of packed words that may have more lanes than the field has: the vectorised functions act on four lanes whatever the field's number of lanes is.
-/

namespace Quad
open Spec

namespace NF4

theorem lane32_word {n l : Nat} {f : Nat → Nat} (h : ∀ l, l < n → f l < 2 ^ 32) (hl : l < n) : lane32 (word 32 n f) l = f l := word_lane h hl

theorem lanesR_congr {f : Nat → Nat → Res Nat} {n a a' c : Nat} (h : ∀ l, l < n → lane32 a l = lane32 a' l) : lanesR f n a c = lanesR f n a' c := by
  induction n generalizing a a' c with
  | zero => rfl
  | succ n ih =>
    have h0 := h 0 (by omega)
    rw [lane32_zero, lane32_zero] at h0
    unfold lanesR
    rw [h0, ih (a' := next a') (fun l hl => by rw [lane32_next, lane32_next]; exact h (l + 1) (by omega))]

theorem word_mod {s n m : Nat} {f : Nat → Nat} (hnm : n ≤ m) (h : ∀ l, l < m → f l < 2 ^ s) : word s m f % 2 ^ (s * n) = word s n f := by
  induction n generalizing m f with
  | zero => simp [word, Nat.mod_one]
  | succ n ih =>
    obtain ⟨m, rfl⟩ : ∃ m', m = m' + 1 := ⟨m - 1, by omega⟩
    rw [word_succ, word_succ, Nat.mul_succ, Nat.add_comm (s * n) s, pow_add, Nat.mod_mul]
    have h0 := h 0 (by omega)
    rw [Nat.add_mul_mod_self_left, Nat.mod_eq_of_lt h0, Nat.add_mul_div_left _ _ (by positivity), Nat.div_eq_of_lt h0, Nat.zero_add,
      ih (by omega) (fun l hl => h (l + 1) (by omega))]

end NF4

namespace Spec.IsNf4
open NF4
variable {N : NF4} {b n : Nat} {simd : Option (Nat × (Nat → Nat))} {O : NF4.Obj}

/-- the number of lanes that `add`, `sub`, `mul`, `pack` and `unpack` act on -/
def wide (n : Nat) (simd : Option (Nat × (Nat → Nat))) : Nat := if simd.isSome then 4 else n

theorem le_wide (H : IsNf4 N b n simd) : n ≤ wide n simd := by
  unfold wide
  split
  · exact H.le4 (by assumption)
  · exact le_rfl

theorem _root_.Quad.Spec.Packed.up {m : Nat} (hm : n ≤ m) {x : Nat} (hx : Packed n x) : Packed m x := by
  refine ⟨lt_of_lt_of_le hx.lt (Nat.pow_le_pow_right (by norm_num) (by omega)), fun l hl => ?_⟩
  by_cases h : l < n
  · exact hx.lane l h
  · have : lane32 x l = 0 := lane_oob hx.lt (by omega)
    rw [this]; norm_num

/-- the field with all the lanes -/
theorem wideObj (H : IsNf4 N b n simd) : ∃ N' b', IsNf4 N' b' (wide n simd) simd ∧ N'.add = N.add ∧ N'.sub = N.sub ∧ N'.mul = N.mul ∧ N'.neg = N.neg ∧
    N'.unpack = N.unpack := by
  unfold wide
  by_cases hs : simd.isSome
  · rw [if_pos hs]
    obtain ⟨⟨R, hi⟩, e⟩ := Option.isSome_iff_exists.mp hs
    have hB4 : Nf4Build 128 4 simd :=
      ⟨by norm_num, by norm_num, by norm_num, fun R' hi' h => ⟨rfl, (H.build.vec R' hi' h).2⟩⟩
    obtain ⟨N4, _, H4⟩ := Props.C15_constructor hB4
    have hsub : N4.sub = N.sub := by funext x y; unfold NF4.sub; rw [H.ns, H4.ns, e]
    refine ⟨N4, 128, H4, ?_, hsub, ?_, ?_, ?_⟩
    · funext x y; unfold NF4.add; rw [H.ns, H4.ns, e]
    · funext x y; unfold NF4.mul; rw [H.ns, H4.ns, e]
    · funext x; unfold NF4.neg; rw [hsub]
    · funext x; unfold NF4.unpack; rw [H.ns, H4.ns, e]; rfl
  · rw [if_neg hs]
    exact ⟨N, b, H, rfl, rfl, rfl, rfl, rfl⟩

theorem low (n a : Nat) : a % 2 ^ (32 * n) < 2 ^ (32 * n) := Nat.mod_lt _ (by positivity)

theorem low_lane {n a l : Nat} (hl : l < n) : lane32 (a % 2 ^ (32 * n)) l = lane32 a l := by
  unfold lane32
  rw [show 32 * n = 32 * l + (32 + 32 * (n - l - 1)) by omega, pow_add, Nat.mod_mul_right_div_self, pow_add, Nat.mod_mul_right_mod]

/-- lane `l`, for words with all the lanes -/
def simW (H : IsNf4 N b n simd) (hO : N.init = .ok O) (l : Fin n) : O.gf.Sim (ZMod 65537) where
  V := Packed (wide n simd)
  φ := fun a => (lane32 a l : ZMod 65537)
  U := Packed n
  zero := ⟨packed0 _, by simp [lane32]⟩
  one := ⟨((H.sim hO l).one.1 : Packed n _).up H.le_wide, (H.sim hO l).one.2⟩
  add := by
    intro a c ha hc
    have hN := (H.init_factors hO).1
    subst hN
    obtain ⟨N', b', H', h1, _⟩ := H.wideObj
    have := Props.C15_add H' ha hc
    rw [h1] at this
    exact ⟨this.1, this.2 l (lt_of_lt_of_le l.2 H.le_wide)⟩
  sub := by
    intro a c ha hc
    have hN := (H.init_factors hO).1
    subst hN
    obtain ⟨N', b', H', _, h1, _⟩ := H.wideObj
    have := Props.C15_sub H' ha hc
    rw [h1] at this
    exact ⟨this.1, this.2 l (lt_of_lt_of_le l.2 H.le_wide)⟩
  mul := by
    intro a c ha hc
    have hN := (H.init_factors hO).1
    subst hN
    obtain ⟨N', b', H', _, _, h1, _⟩ := H.wideObj
    have := Props.C15_mul H' ha hc
    rw [h1] at this
    exact ⟨this.1, this.2 l (lt_of_lt_of_le l.2 H.le_wide)⟩
  neg := by
    intro a ha
    have hN := (H.init_factors hO).1
    subst hN
    obtain ⟨N', b', H', _, _, _, h1, _⟩ := H.wideObj
    have := Props.C15_neg H' ha
    rw [h1] at this
    exact ⟨this.1, this.2 l (lt_of_lt_of_le l.2 H.le_wide)⟩
  inv := by
    intro a _ ha
    obtain ⟨r, e, h1, h2⟩ := (H.sim hO l).inv ha trivial
    exact ⟨r, e, (h1 : Packed n r).up H.le_wide, h2⟩
  div := by
    intro a c ha _ hc
    have hN := (H.init_factors hO).1
    subst hN
    have hP : Packed n (a % 2 ^ (32 * n)) := ⟨low n a, fun l hl => by
      rw [low_lane hl]; exact (ha : Packed _ a).lane l (lt_of_lt_of_le hl H.le_wide)⟩
    obtain ⟨r, e, h1, h2⟩ := Props.C15_div H hP hc
    refine ⟨r, ?_, h1.up H.le_wide, ?_⟩
    · show O.N.div a c = _
      rw [← e]
      unfold NF4.div
      rw [H.nn]
      congr 1
      exact lanesR_congr (fun l hl => by rw [low_lane hl])
    · rw [h2 l l.2, low_lane l.2]
  exp' := fun h => nomatch h
  omega := by
    intro a e ha he
    have hN := (H.init_factors hO).1
    subst hN
    have hP : Packed n (a % 2 ^ (32 * n)) := ⟨low n a, fun l hl => by
      rw [low_lane hl]; exact (ha : Packed _ a).lane l (lt_of_lt_of_le hl H.le_wide)⟩
    have hx : O.N.exp a (O.N.replicate e) = O.N.exp (a % 2 ^ (32 * n)) (O.N.replicate e) := by
      unfold NF4.exp
      rw [H.nn, lanes2_eq, lanes2_eq]
      congr 1
      refine List.map_congr_left (fun l hl => ?_)
      rw [low_lane (List.mem_range.mp hl)]
    have := Props.C15_exp H hP (O.N.replicate e)
    show Packed _ (O.N.exp a (O.N.replicate e)) ∧ (lane32 (O.N.exp a (O.N.replicate e)) l : ZMod 65537) = _
    rw [hx]
    refine ⟨this.1.up H.le_wide, (this.2 l l.2).trans ?_⟩
    rw [H.replicate_lane (he rfl) l.2, low_lane l.2]

/-- packing with any flag -/
theorem packFlag_wide (H : IsNf4 N b n simd) {a : Nat} (flag : Nat) :
    N.packFlag a flag = NF4.word 32 (wide n simd) (fun l => if flag.testBit l then 65536 else lane16 a l) := by
  have hlt : ∀ l, (if flag.testBit l then 65536 else lane16 a l) < 2 ^ 32 := by
    intro l
    split
    · norm_num
    · exact lt_trans (lane16_lt a l) (by norm_num)
  unfold NF4.packFlag wide
  rw [H.ns]
  by_cases hs : simd.isSome
  · rw [if_pos hs, if_pos hs]
    have hb : ∀ f : Nat, (f &&& 1 ≠ 0) ↔ f.testBit 0 = true := by
      intro f; rw [Nat.and_one_is_mod, Nat.testBit_zero]; simp
    unfold packFlagV
    simp only [hb, Nat.testBit_shiftRight, extract16_eq a 0 (by omega), extract16_eq a 1 (by omega), extract16_eq a 2 (by omega),
      extract16_eq a 3 (by omega), ← Nat.shiftRight_add, Nat.reduceAdd]
    rw [set_epi32_eq (f := fun l => if flag.testBit l then 65536 else lane16 a l) (fun l _ => hlt l)]
  · rw [if_neg hs, if_neg hs, packFlagLanes_eq, H.nn, H.expand32_eq (fun l _ => hlt l)]

/-- unpacking, of which the low lanes count -/
theorem unpack_low (H : IsNf4 N b n simd) {a : Nat} (ha : Packed (wide n simd) a) :
    (N.unpack a).1 % 2 ^ (16 * n) = word 16 n (fun l => if lane32 a l = 65536 then 0 else lane32 a l) := by
  obtain ⟨N', b', H', _, _, _, _, h1⟩ := H.wideObj
  have := H'.unpack_eq ha
  rw [h1] at this
  rw [this]
  refine word_mod H.le_wide (fun l hl => ?_)
  have := ha.lane l hl
  split <;> omega

end Spec.IsNf4
end Quad
