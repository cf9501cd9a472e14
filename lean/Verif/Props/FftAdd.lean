import Verif.Lemmas.FftAddObj

/-!
# Properties C21 and C22: the additive transform and the Taylor expansions
-/

namespace Quad.Props
open Quad Quad.Spec Finset Polynomial Additive

variable {O : BinExt.Obj} {b n : Nat}

theorem allV_of {O : BinExt.Obj} {b n : Nat} (h : IsBinExt O b n) {l : Nat} {x : Array Nat} (hx : IsVec (2 ^ n) l x) :
    haveI := h.fact
    AllV h.isBinField.2.sim x := by
  haveI := h.fact
  intro i
  by_cases hi : i < l
  · exact hx.2 i hi
  · rw [gt_oob (by rw [hx.1]; omega)]; exact h.isBinField.2.sim.zero.1

/-! ## C21 -/

/-- C21: an `Additive` object built on a basis of `m ≥ 1` independent elements of `GF(2^n)`, whatever the memory held before, has
length `2^m`; `compute_B` lists the points of the span of the basis; `fft` writes the values of the input polynomial at these points,
in this order; `ifft` inverts `fft`, and `fft` inverts `ifft`. -/
theorem C21_any_basis (h : IsBinExt O b n) {basis : Array Nat} (h1 : 1 ≤ basis.size) (hb : basis.size < b)
    (hV : IsVec (2 ^ n) basis.size basis) (hI : Independent basis) (mem : Nat → Nat) :
    ∃ Ls, Additive.mkB O.gf b mem basis.size basis = .ok Ls ∧ (Additive.ft O.gf b Ls mem).n = 2 ^ basis.size ∧
      (∀ B : Array Nat, B.size = 2 ^ basis.size →
        Additive.compute_B O.gf b Ls B mem = .ok (Array.ofFn (n := 2 ^ basis.size) fun i => spanPoint basis i)) ∧
      ∀ out out' x : Array Nat, out.size = 2 ^ basis.size → out'.size = 2 ^ basis.size → IsVec (2 ^ n) (2 ^ basis.size) x →
        (Additive.ft O.gf b Ls mem).fft out x = .ok (spanEvals O.gf basis x) ∧
        (Additive.ft O.gf b Ls mem).ifft out' (spanEvals O.gf basis x) = .ok x ∧
        ∃ y, (Additive.ft O.gf b Ls mem).ifft out x = .ok y ∧ IsVec (2 ^ n) (2 ^ basis.size) y ∧
          (Additive.ft O.gf b Ls mem).fft out' y = .ok x := by
  haveI := h.fact
  have B := h.isBinField.2
  haveI := B.good.H.char
  have hF : B.sim.Full := B.full
  have hV' : ∀ j, j < basis.size → B.sim.V (gt basis j) := fun j hj => hV.2 j hj
  obtain ⟨Ls, e, hn, hB, hf, hi, hr, _⟩ := basis_spec B.sim hF (fun _ _ => rfl) h1 hb hV' (indep_of hF (fun _ _ => rfl) hV' hI) mem
  refine ⟨Ls, e, hn, hB, fun out out' x ho ho' hx => ?_⟩
  have hx' := allV_of h hx
  obtain ⟨y, ey, sy, vy, py⟩ := hi out x ho hx.1 hx'
  refine ⟨hf out x ho hx.1 hx', hr out' x ho' hx.1 hx', y, ey, ⟨sy, fun j _ => vy j⟩, ?_⟩
  rw [← py]
  exact hf out' y ho' sy vy

/-- C21: the `Additive` object without a basis uses `g, g^2, .., g^(m-1), 1` for the primitive element `g` of the field; these are
independent, so the same holds for every `1 ≤ m ≤ n`. -/
theorem C21_default_basis (h : IsBinExt O b n) {m : Nat} (h1 : 1 ≤ m) (hm : m ≤ n) (hb : m < b) (mem : Nat → Nat) :
    IsVec (2 ^ n) m (powerBasis O.gf O.root m) ∧ Independent (powerBasis O.gf O.root m) ∧
    ∃ Ls, Additive.mk' O.gf b O.root m mem = .ok Ls ∧ (Additive.ft O.gf b Ls mem).n = 2 ^ m ∧
      (∀ B : Array Nat, B.size = 2 ^ m →
        Additive.compute_B O.gf b Ls B mem = .ok (Array.ofFn (n := 2 ^ m) fun i => spanPoint (powerBasis O.gf O.root m) i)) ∧
      ∀ out out' x : Array Nat, out.size = 2 ^ m → out'.size = 2 ^ m → IsVec (2 ^ n) (2 ^ m) x →
        (Additive.ft O.gf b Ls mem).fft out x = .ok (spanEvals O.gf (powerBasis O.gf O.root m) x) ∧
        (Additive.ft O.gf b Ls mem).ifft out' (spanEvals O.gf (powerBasis O.gf O.root m) x) = .ok x ∧
        ∃ y, (Additive.ft O.gf b Ls mem).ifft out x = .ok y ∧ IsVec (2 ^ n) (2 ^ m) y ∧
          (Additive.ft O.gf b Ls mem).fft out' y = .ok x := by
  haveI := h.fact
  have B := h.isBinField.2
  haveI := B.good.H.char
  have hF : B.sim.Full := B.full
  have hs : (powerBasis O.gf O.root m).size = m := by simp [powerBasis]
  have hg : B.sim.V O.root := B.root_lt
  have hpb : ∀ j, j < m → _ := fun j hj => powerBasis_sem hF hg (m := m) hj
  have hvec : IsVec (2 ^ n) m (powerBasis O.gf O.root m) := ⟨hs, fun j hj => (hpb j hj).1⟩
  have hind : Independent (powerBasis O.gf O.root m) := by
    intro i h0 hi hz
    have hsp := spanPoint_sem (S := B.sim) (basis := powerBasis O.gf O.root m) (fun _ _ => rfl) (fun j hj => (hpb j (by omega)).1) i
    rw [hz, B.sim.zero.2, hs] at hsp
    rw [hs] at hi
    refine indep_powers (g := B.sim.φ O.root) B.good.H.pos B.root_ord hm i hi (by omega) ?_
    rw [span_congr (γ := fun j => B.sim.φ (gt (powerBasis O.gf O.root m) j)) (fun j hj => ((hpb j hj).2).symm) i]
    exact hsp.2.symm
  have key := C21_any_basis h (basis := powerBasis O.gf O.root m) (by omega) (by omega) (by rw [hs]; exact hvec) hind mem
  rw [hs] at key
  obtain ⟨Ls, e, rest⟩ := key
  refine ⟨hvec, hind, Ls, ?_, rest⟩
  unfold Additive.mk'
  simp only [cassert, show m ≥ 1 from h1, decide_true, if_true, ok_bind]
  rw [defaultBetas_spec hF hg h1 mem, ok_bind, e]

/-- different indices name different points -/
theorem C21_points_differ {basis : Array Nat} (hI : Independent basis) {i j : Nat}
    (hi : i < 2 ^ basis.size) (hj : j < 2 ^ basis.size) (e : spanPoint basis i = spanPoint basis j) : i = j := by
  by_contra hne
  refine hI (i ^^^ j) (Nat.pos_of_ne_zero fun h0 => hne (eq_of_xor h0)) (Nat.xor_lt_two_pow hi hj) ?_
  have key : ∀ l : List Nat, ∀ a c : Nat, l.foldl (fun acc t => if (i ^^^ j).testBit t then acc ^^^ gt basis t else acc) (a ^^^ c) =
      l.foldl (fun acc t => if i.testBit t then acc ^^^ gt basis t else acc) a ^^^
        l.foldl (fun acc t => if j.testBit t then acc ^^^ gt basis t else acc) c := by
    intro l
    induction l with
    | nil => intro a c; rfl
    | cons t l ih =>
      intro a c
      simp only [List.foldl_cons]
      rw [← ih]
      congr 1
      rw [Nat.testBit_xor]
      have e1 : ∀ a c d : Nat, a ^^^ c ^^^ d = a ^^^ d ^^^ c := fun a c d => by rw [Nat.xor_assoc, Nat.xor_comm c d, ← Nat.xor_assoc]
      cases i.testBit t <;> cases j.testBit t <;> simp
      · exact Nat.xor_assoc _ _ _
      · exact e1 _ _ _
      · rw [e1 a (gt basis t), ← Nat.xor_assoc a c, Nat.xor_assoc (a ^^^ c), Nat.xor_self, Nat.xor_zero]
  have := key (List.range basis.size) 0 0
  rw [Nat.xor_self] at this
  unfold spanPoint at e ⊢
  rw [this, e, Nat.xor_self]

theorem binExt_exists {b n : Nat} (h : BinSupported b n) : ∃ O, IsBinExt O b n := by
  haveI := fact_of (size_of h.size)
  obtain ⟨O, e, _⟩ := exists_binExt h (fun _ _ => 0) (fun _ _ _ => 0)
  exact ⟨O, h, _, _, e⟩

example : ∃ O, IsBinExt O 32 16 ∧ 1 ≤ 10 ∧ 10 ≤ 16 ∧ 10 < 32 := by
  obtain ⟨O, h⟩ := binExt_exists (b := 32) (n := 16) ⟨by decide, by decide, by decide, by decide⟩
  exact ⟨O, h, by decide, by decide, by decide⟩
example : Independent #[2, 4, 1] := by
  intro i h0 hi
  have : i < 8 := by simpa using hi
  interval_cases i <;> decide

/-! ## C22 -/

/-- C22: `taylor_expand` of a polynomial of degree less than `d`, for any `t ≥ 2`, into a vector of the multiple of `t` next to `d`,
writes the coefficients of the `g_i` with `f = sum_i g_i(x) (x^t - x)^i`, and `inv_taylor_expand` writes `f` back. -/
theorem C22_taylor_expand (h : IsBinExt O b n) {d t M : Nat} (ht : 2 ≤ t) (hd : 0 < d) (hM : d ≤ t * M) (hM' : t * M < d + t) (hb : d ≤ 2 ^ b)
    {out f : Array Nat} (hout : out.size = t * M) (hf : IsVec (2 ^ n) d f) :
    ∃ g, Additive.taylor_expand O.gf b out f d t = .ok g ∧ IsVec (2 ^ n) (t * M) g ∧
      polyOfWords (binModulus n) n f = taylorSum (binModulus n) n t M g ∧
      ∀ (fft_n : Nat) (out' : Array Nat), out'.size = d → d ≤ fft_n →
        Additive.inv_taylor_expand O.gf fft_n out' g t = .ok f := by
  haveI := h.fact
  have B := h.isBinField.2
  haveI := B.good.H.char
  have hF : B.sim.Full := B.full
  have hv := allV_of h hf
  have hM0 : 0 < M := by
    rcases Nat.eq_zero_or_pos M with h0 | h0
    · subst h0; omega
    · exact h0
  obtain ⟨g, eg, sg, vg, pg⟩ := taylor_expand_spec (F := O.gf) (S := B.sim) (b := b) (n := d) (t := t) (output := out) (input := f) ht hd
    (by rw [hf.1]) (by omega) (by omega) hb hv
  rw [hout] at sg
  rw [hout] at pg
  have hfp : cPoly (fun i => B.sim.φ (gt f i)) d = polyOf B.sim f := (polyOf_cPoly hf.1).symm
  refine ⟨g, eg, ⟨sg, fun j _ => vg j⟩, ?_, fun fft_n out' ho' hn' => ?_⟩
  · rw [binModulus_eq (size_of h.ok.size), polyOfWords_eq (S := B.sim) (fun i _ => root_eq_mk (hv i)),
      taylorSum_eq (S := B.sim) (by omega) (fun i => root_eq_mk (vg i)), pg, hfp]
  · obtain ⟨r, er, sr, vr, pr⟩ := inv_taylor_expand_spec (F := O.gf) (S := B.sim) hF (fft_n := fft_n) (t := t) (M := M) (output := out') (input := g)
      ht hM0 sg (by omega) (by omega) vg
    rw [er]
    congr 1
    refine gt_ext (by rw [sr, ho', hf.1]) fun i hi => hF.inj (vr i) (hv i) ?_
    rw [pr i (by omega), sg, pg, hfp, polyOf_coeff]

/-- C22 for `t = 2` with the two vectors used by the transform, for the lengths that are powers of two. -/
theorem C22_taylor_expand_t2 (h : IsBinExt O b n) {e : Nat} (h1 : 1 ≤ e) (hb : e ≤ b) {f g0 g1 : Array Nat} (hf : IsVec (2 ^ n) (2 ^ e) f)
    (h0 : g0.size = 2 ^ (e - 1)) (h0' : g1.size = 2 ^ (e - 1)) :
    ∃ f' u v, Additive.taylor_expand_t2 O.gf b g0 g1 f (2 ^ e) = .ok (f', u, v) ∧ IsVec (2 ^ n) (2 ^ (e - 1)) u ∧ IsVec (2 ^ n) (2 ^ (e - 1)) v ∧
      polyOfWords (binModulus n) n f = taylorSum2 (binModulus n) n (2 ^ (e - 1)) u v ∧
      ∀ out : Array Nat, out.size = 2 ^ e → Additive.inv_taylor_expand_t2 O.gf u v out = .ok f := by
  haveI := h.fact
  have B := h.isBinField.2
  haveI := B.good.H.char
  have hF : B.sim.Full := B.full
  have hv := allV_of h hf
  have hp : 2 ^ e = 2 * 2 ^ (e - 1) := by rw [← pow_succ']; congr 1; omega
  obtain ⟨f', u, v, ee, su, sv, vv, pp⟩ := taylor_expand_t2_spec (F := O.gf) (S := B.sim) (b := b) (e := e) (g0 := g0) (g1 := g1) (input := f)
    hf.1 hb (by omega) (by omega) hv
  have hu : ∀ i, i < 2 ^ (e - 1) → B.sim.V (gt u i) := fun i hi => by
    have := vv (2 * i) (by omega)
    unfold il at this
    rwa [if_pos (by omega), show 2 * i / 2 = i by omega] at this
  have hw : ∀ i, i < 2 ^ (e - 1) → B.sim.V (gt v i) := fun i hi => by
    have := vv (2 * i + 1) (by omega)
    unfold il at this
    rwa [if_neg (by omega), show (2 * i + 1) / 2 = i by omega] at this
  refine ⟨f', u, v, ee, ⟨by omega, hu⟩, ⟨by omega, hw⟩, ?_, fun out ho => ?_⟩
  · rw [binModulus_eq (size_of h.ok.size), polyOfWords_eq (S := B.sim) (fun i _ => root_eq_mk (hv i)),
      taylorSum2_eq (S := B.sim) (fun i hi => root_eq_mk (hu i hi)) (fun i hi => root_eq_mk (hw i hi)), ← hp, pp]
  · obtain ⟨r, er, sr, vr, pr⟩ := inv_taylor_expand_t2_spec (F := O.gf) (S := B.sim) hF (e := e) (g0 := u) (g1 := v) (output := out) ho
      (by omega) (by omega) vv
    rw [er]
    congr 1
    refine gt_ext (by rw [sr, hf.1]) fun i hi => hF.inj (vr i) (hv i) ?_
    rw [← polyOf_coeff, pr, pp, polyOf_coeff]

example : (∃ O, IsBinExt O 16 8) ∧ 2 ≤ 3 ∧ 0 < 7 ∧ 7 ≤ 3 * 3 ∧ 3 * 3 < 7 + 3 ∧ 7 ≤ 2 ^ 16 ∧
    IsVec (2 ^ 8) 7 #[1, 2, 255, 0, 17, 4, 9] := by
  refine ⟨binExt_exists ⟨by decide, by decide, by decide, by decide⟩, by decide, by decide, by decide, by decide, by decide, rfl, fun j hj => ?_⟩
  interval_cases j <;> decide

end Quad.Props
