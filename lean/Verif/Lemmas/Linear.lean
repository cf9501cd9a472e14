import Verif.Spec.Linear
import Verif.Lemmas.Distance
import Verif.Lemmas.FecGf2n
import Verif.Lemmas.FecFftBuild

/-!
# Fragments of sums of data
-/

namespace Quad
open Quad.Spec

/-- word by word exclusive or of two rows -/
def xorRow (k : Nat) (a a' : Array Nat) : Array Nat := Array.ofFn (fun i : Fin k => gt a i ^^^ gt a' i)

theorem xorRow_gt {k : Nat} {a a' : Array Nat} {i : Nat} (hi : i < k) : gt (xorRow k a a') i = gt a i ^^^ gt a' i := gt_ofFn hi

theorem xor_lt_pow {w a b : Nat} (ha : a < 256 ^ w) (hb : b < 256 ^ w) : a ^^^ b < 256 ^ w := by
  rw [show 256 = 2 ^ 8 by rfl, ← Nat.pow_mul] at ha hb ⊢
  exact Nat.xor_lt_two_pow ha hb

theorem xorRow_isRow {w k : Nat} {a a' : Array Nat} (ha : IsRow w k a) (ha' : IsRow w k a') : IsRow w k (xorRow k a a') :=
  ⟨by simp [xorRow], fun i hi => by rw [xorRow_gt hi]; exact xor_lt_pow (ha.2 i hi) (ha'.2 i hi)⟩

theorem xorBytes_length {s s' : List Nat} (h : s.length = s'.length) : (xorBytes s s').length = s.length := by
  unfold xorBytes
  rw [List.length_zipWith, h, Nat.min_self]

theorem xorBytes_lt {s s' : List Nat} (h : ∀ x ∈ s, x < 256) (h' : ∀ x ∈ s', x < 256) : ∀ x ∈ xorBytes s s', x < 256 := by
  intro x hx
  obtain ⟨i, hi, rfl⟩ := List.mem_iff_getElem.1 hx
  unfold xorBytes at hi ⊢
  rw [List.getElem_zipWith]
  rw [List.length_zipWith] at hi
  exact Nat.xor_lt_two_pow (n := 8) (h _ (List.getElem_mem _)) (h' _ (List.getElem_mem _))

theorem xor_bytes {x y a b : Nat} (hx : x < 256) (hy : y < 256) : (x + 256 * a) ^^^ (y + 256 * b) = (x ^^^ y) + 256 * (a ^^^ b) := by
  have hz : x ^^^ y < 2 ^ 8 := Nat.xor_lt_two_pow (n := 8) hx hy
  apply Nat.eq_of_testBit_eq
  intro i
  rw [Nat.testBit_xor, Nat.add_comm x, Nat.add_comm y, Nat.add_comm (x ^^^ y), show 256 = 2 ^ 8 by rfl, Nat.testBit_two_pow_mul_add _ hx,
    Nat.testBit_two_pow_mul_add _ hy, Nat.testBit_two_pow_mul_add _ hz]
  split <;> rw [Nat.testBit_xor]

theorem leVal_xor : ∀ {s s' : List Nat}, s.length = s'.length → (∀ x ∈ s, x < 256) → (∀ x ∈ s', x < 256) →
    leVal (xorBytes s s') = leVal s ^^^ leVal s'
  | [], [], _, _, _ => rfl
  | x :: s, y :: s', hl, h, h' => by
    show (x ^^^ y) + 256 * leVal (xorBytes s s') = (x + 256 * leVal s) ^^^ (y + 256 * leVal s')
    rw [leVal_xor (by simpa using hl) (fun x hx => h x (List.mem_cons_of_mem _ hx)) (fun x hx => h' x (List.mem_cons_of_mem _ hx)),
      xor_bytes (h x (by simp)) (h' y (by simp))]

theorem leBytes_xor {w a b : Nat} (ha : a < 256 ^ w) (hb : b < 256 ^ w) : leBytes w (a ^^^ b) = xorBytes (leBytes w a) (leBytes w b) := by
  have h1 := leVal_xor (s := leBytes w a) (s' := leBytes w b) (by simp) (leBytes_lt w a) (leBytes_lt w b)
  rw [leVal_leBytes ha, leVal_leBytes hb] at h1
  have h2 := leBytes_leVal (xorBytes_lt (leBytes_lt w a) (leBytes_lt w b))
  rw [h1, xorBytes_length (by simp), leBytes_length] at h2
  exact h2

theorem flat_xor {w T : Nat} {f g : Nat → Nat} (hf : ∀ t, f t < 256 ^ w) (hg : ∀ t, g t < 256 ^ w) :
    flat w (fun t => f t ^^^ g t) T = xorBytes (flat w f T) (flat w g T) := by
  induction T with
  | zero => simp [flat_zero, xorBytes]
  | succ T ih =>
    rw [flat_succ, flat_succ, flat_succ, ih, leBytes_xor (hf T) (hg T)]
    unfold xorBytes
    rw [List.zipWith_append (by rw [flat_length, flat_length])]

theorem wordAt_xor {w t : Nat} {s s' : List Nat} (hl : s.length = s'.length) (h : ∀ x ∈ s, x < 256) (h' : ∀ x ∈ s', x < 256) :
    wordAt w (xorBytes s s') t = wordAt w s t ^^^ wordAt w s' t := by
  unfold wordAt
  rw [← leVal_xor (by simp [hl]) (fun x hx => h x (List.mem_of_mem_drop (List.mem_of_mem_take hx)))
    (fun x hx => h' x (List.mem_of_mem_drop (List.mem_of_mem_take hx)))]
  unfold xorBytes
  rw [List.drop_zipWith, List.take_zipWith]

section
variable {Γ : Type} {E : Fec Γ} {st : Array Nat → Nat → Nat} {mk : Array Nat → Nat → Option Nat} {A : Array Nat → Prop}

theorem Fec.HSpec.codesSums (H : E.HSpec st mk A) {w k n : Nat} (hw : E.base.word_size = w) (hk : E.base.n_data = k) (hn : E.base.n_outputs = n)
    (hmk : ∀ a f, IsRow w k a → f < n → mk a f = none)
    (hst : ∀ a a' f, IsRow w k a → IsRow w k a' → f < n → st (xorRow k a a') f = st a f ^^^ st a' f) : CodesSums E w k n := by
  intro data data' frags frags' fprops fprops' T mem mem' h h' hl e e' mem''
  have C := H.codeOf hw hk hn h e
  have C' := H.codeOf hw hk hn h' e'
  have gx : ∀ i, i < k → gt (xorStreams k data data') i = xorBytes (gt data i) (gt data' i) := fun i hi => gt_ofFn hi
  have hd : Gf2nData w k (xorStreams k data data') T := by
    refine ⟨by simp [xorStreams], fun i hi => by rw [gx i hi]; exact xorBytes_lt (h.bytes i hi) (h'.bytes i hi),
      fun i hi => by rw [gx i hi, xorBytes_length (hl i hi)]; exact h.full i hi, ?_⟩
    obtain ⟨i, hi, hlast⟩ := h.last
    exact ⟨i, hi, by rw [gx i hi, xorBytes_length (hl i hi)]; exact hlast⟩
  obtain ⟨o, p, e2⟩ := H.codes hw hk hn mem'' hd
  have C2 := H.codeOf hw hk hn hd e2
  have hrow : ∀ t, rowAt w k (gt (xorStreams k data data')) t = xorRow k (rowAt w k (gt data) t) (rowAt w k (gt data') t) := by
    intro t
    refine gt_ext (by simp [rowAt, xorRow]) (fun i hi => ?_)
    have hi' : i < k := by simpa [rowAt] using hi
    rw [rowAt_gt hi', xorRow_gt hi', rowAt_gt hi', rowAt_gt hi', gx i hi', wordAt_xor (hl i hi') (h.bytes i hi') (h'.bytes i hi')]
  have r1 := fun t => rowAt_isRow (w := w) h.bytes t
  have r2 := fun t => rowAt_isRow (w := w) h'.bytes t
  have lt : ∀ {a f}, IsRow w k a → f < n → st a f < 256 ^ w := fun {a f} ha hf => by subst hw hk hn; exact H.lt ha hf
  rw [e2]
  congr 2
  · refine gt_ext (by rw [C2.fsize]; simp [xorStreams]) (fun f hf => ?_)
    rw [C2.fsize] at hf
    rw [C2.frag f hf, show gt (xorStreams n frags frags') f = xorBytes (gt frags f) (gt frags' f) from gt_ofFn hf, C.frag f hf, C'.frag f hf,
      ← flat_xor (fun t => lt (r1 t) hf) (fun t => lt (r2 t) hf)]
    congr 1
    funext t
    rw [hrow, hst _ _ _ (r1 t) (r2 t) hf]
  · refine gt_ext (by rw [C2.psize]; simp) (fun f hf => ?_)
    rw [C2.psize] at hf
    rw [C2.prop f hf, gt_replicate hf, marksOf_congr (g := fun _ => none) (fun t _ => hmk _ f (by rw [hrow]; exact xorRow_isRow (r1 t) (r2 t)) hf)]
    show Properties.mk _ = Properties.mk []
    congr 1
    unfold marksOf
    simp

end

open Finset in
theorem RsGf2n.stored_xor {K : Type} [Field K] {F : GF} [F.Plain] {S : F.Sim K} {mat : Mat} {m k w : Nat} {f : Nat → Nat → Nat} (H : S.Full)
    (hV : ∀ a, S.V a ↔ a < 256 ^ w) (hx : ∀ a b, F.add a b = a ^^^ b) (hk : 0 < k) (hm : Mat.Is mat m k f)
    (hv : ∀ i j, i < m → j < k → S.V (f i j)) {a a' : Array Nat} (ha : IsRow w k a) (ha' : IsRow w k a') {i : Nat} (hi : i < m) :
    stored F mat m (xorRow k a a') i = stored F mat m a i ^^^ stored F mat m a' i := by
  have h3 := xorRow_isRow ha ha'
  obtain ⟨p1, p2⟩ := stored_spec (S := S) hk hm hv ha.1 (fun j hj => (hV _).2 (ha.2 j hj)) hi
  obtain ⟨q1, q2⟩ := stored_spec (S := S) hk hm hv ha'.1 (fun j hj => (hV _).2 (ha'.2 j hj)) hi
  obtain ⟨r1, r2⟩ := stored_spec (S := S) hk hm hv h3.1 (fun j hj => (hV _).2 (h3.2 j hj)) hi
  have hs := S.add p1 q1
  rw [hx] at hs
  refine H.inj r1 hs.1 ?_
  rw [hs.2, p2, q2, r2, ← sum_add_distrib]
  refine sum_congr rfl fun j hj => ?_
  have hj := mem_range.1 hj
  have hs := S.add ((hV _).2 (ha.2 j hj)) ((hV _).2 (ha'.2 j hj))
  rw [hx] at hs
  rw [xorRow_gt hj, hs.2, mul_add]

theorem polyOf_xor {K : Type} [Field K] {F : GF} {S : F.Sim K} {k w : Nat} (hV : ∀ a, a < 256 ^ w → S.V a) (hx : ∀ a b, F.add a b = a ^^^ b)
    {a a' : Array Nat} (ha : IsRow w k a) (ha' : IsRow w k a') : polyOf S (xorRow k a a') = polyOf S a + polyOf S a' := by
  ext j
  rw [Polynomial.coeff_add, polyOf_coeff, polyOf_coeff, polyOf_coeff]
  by_cases hj : j < k
  · have hs := S.add (hV _ (ha.2 j hj)) (hV _ (ha'.2 j hj))
    rw [hx] at hs
    rw [xorRow_gt hj, hs.2]
  · rw [gt_oob (by simp [xorRow]; omega), gt_oob (by rw [ha.1]; omega), gt_oob (by rw [ha'.1]; omega), S.zero.2, add_zero]

theorem RsGf2nFftAdd.sym_xor {K : Type} [Field K] {c : RsGf2nFftAdd.Code} {S : c.base.F.Sim K} {w k m n : Nat} {pt : Nat → K}
    (G : RsGf2nFftAdd.Good c S w k m n pt) (hx : ∀ a b, c.base.F.add a b = a ^^^ b) {a a' : Array Nat} (ha : IsRow w k a) (ha' : IsRow w k a')
    {f : Nat} (hf : f < n) : RsGf2nFftAdd.sym c (xorRow k a a') f = RsGf2nFftAdd.sym c a f ^^^ RsGf2nFftAdd.sym c a' f := by
  obtain ⟨p1, p2⟩ := RsGf2nFftAdd.sym_spec G ha hf
  obtain ⟨q1, q2⟩ := RsGf2nFftAdd.sym_spec G ha' hf
  obtain ⟨r1, r2⟩ := RsGf2nFftAdd.sym_spec G (xorRow_isRow ha ha') hf
  have hs := S.add p1 q1
  rw [hx] at hs
  refine G.full.inj r1 hs.1 ?_
  rw [hs.2, p2, q2, r2, polyOf_xor (fun a h => (G.val a).2 h) hx ha ha', Polynomial.eval_add]

theorem RsGf2nFftAdd.add_xor {b w k m : Nat} {mem : Nat → Nat} {junk : Nat → Nat → Nat} {junk3 : Nat → Nat → Nat → Nat} {c : RsGf2nFftAdd.Code}
    (h : RsGf2nFftAdd.mkCode b w k m mem junk junk3 = .ok c) : ∀ x y, c.base.F.add x y = x ^^^ y := by
  unfold RsGf2nFftAdd.mkCode at h
  obtain ⟨_, _, h⟩ := bind_ok h
  obtain ⟨_, _, h⟩ := bind_ok h
  obtain ⟨_, _, h⟩ := bind_ok h
  simp only at h
  obtain ⟨_, _, h⟩ := bind_ok h
  obtain ⟨_, _, h⟩ := bind_ok h
  obtain ⟨_, _, h⟩ := bind_ok h
  obtain ⟨_, _, h⟩ := bind_ok h
  cases h
  exact fun x y => rfl

theorem RsGf2nFft.add_xor {b w k m : Nat} {mem : Nat → Nat} {junk : Nat → Nat → Nat} {junk3 : Nat → Nat → Nat → Nat} {B : FecBase}
    (h : RsGf2nFft.mkBase b w k m mem junk junk3 = .ok B) : ∀ x y, B.F.add x y = x ^^^ y := by
  unfold RsGf2nFft.mkBase at h
  obtain ⟨_, _, h⟩ := bind_ok h
  obtain ⟨_, _, h⟩ := bind_ok h
  obtain ⟨_, _, h⟩ := bind_ok h
  simp only at h
  obtain ⟨_, _, h⟩ := bind_ok h
  obtain ⟨_, _, h⟩ := bind_ok h
  obtain ⟨_, _, h⟩ := bind_ok h
  obtain ⟨_, _, h⟩ := bind_ok h
  obtain ⟨_, _, h⟩ := bind_ok h
  obtain ⟨_, _, h⟩ := bind_ok h
  obtain ⟨_, _, h⟩ := bind_ok h
  obtain ⟨_, _, h⟩ := bind_ok h
  cases h
  exact fun x y => rfl

theorem FftCode.stored_xor {K : Type} [Field K] {B : FecBase} {S : B.F.Sim K} {b k m n len_2k : Nat} {g2 : K}
    (G : FftCode.Good B b (256 ^ B.word_size) (256 ^ B.word_size) k m S n len_2k g2) (hx : ∀ x y, B.F.add x y = x ^^^ y)
    {a a' : Array Nat} (ha : IsRow B.word_size k a) (ha' : IsRow B.word_size k a') (f : Nat) :
    FftCode.stored B (256 ^ B.word_size) (xorRow k a a') f =
      FftCode.stored B (256 ^ B.word_size) a f ^^^ FftCode.stored B (256 ^ B.word_size) a' f := by
  obtain ⟨p1, p2⟩ := FftCode.sym_spec G (a := a) (by rw [G.n_data]; exact ha) f
  obtain ⟨q1, q2⟩ := FftCode.sym_spec G (a := a') (by rw [G.n_data]; exact ha') f
  obtain ⟨r1, r2⟩ := FftCode.sym_spec G (a := xorRow k a a') (by rw [G.n_data]; exact xorRow_isRow ha ha') f
  have hs := S.add ((G.D.val _).2 p1) ((G.D.val _).2 q1)
  rw [hx] at hs
  unfold FftCode.stored
  rw [Nat.mod_eq_of_lt p1, Nat.mod_eq_of_lt q1, Nat.mod_eq_of_lt r1]
  refine G.D.full.inj ((G.D.val _).2 r1) hs.1 ?_
  rw [hs.2, p2, q2, r2, polyOf_xor (fun a h => (G.D.val a).2 h) hx ha ha', Polynomial.eval_add]

theorem FftCode.mark_none {K : Type} [Field K] {B : FecBase} {S : B.F.Sim K} {b k m n len_2k : Nat} {g2 : K}
    (G : FftCode.Good B b (256 ^ B.word_size) (256 ^ B.word_size) k m S n len_2k g2) {a : Array Nat} (ha : IsRow B.word_size k a) (f : Nat) :
    FftCode.markOf B (256 ^ B.word_size) a f = none := by
  obtain ⟨p1, _⟩ := FftCode.sym_spec G (a := a) (by rw [G.n_data]; exact ha) f
  unfold FftCode.markOf
  rw [if_neg (by omega)]

end Quad
