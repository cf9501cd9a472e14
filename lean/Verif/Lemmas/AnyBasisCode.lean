import Verif.Lemmas.LongCode
import Verif.Lemmas.Linear
import Verif.Props.Params

/-!
# The code on the additive FFT with more fragments than its field has elements
-/

namespace Quad
open Finset Spec
namespace RsGf2nFftAdd
open Additive

/-- what is left of `Good` when the elements of the transform are not independent -/
structure AnyGood {K : Type} [Field K] (c : Code) (S : c.base.F.Sim K) (w k m n : Nat) : Prop where
  full : S.Full
  val : ∀ a, S.V a ↔ a < 256 ^ w
  xor : ∀ x y, c.base.F.add x y = x ^^^ y
  sys : c.base.sys = false
  hw : WordSize w
  word : c.base.word_size = w
  n_data : c.base.n_data = k
  n_parities : c.base.n_parities = m
  code_len : c.base.code_len = k + m
  n_outputs : c.base.n_outputs = k + m
  hn : c.base.n = n
  kpos : 0 < k
  le : k + m ≤ n
  fft : ∀ ox oy oz x y z : Array Nat, ox.size = n → oy.size = n → oz.size = n → x.size = n → y.size = n → z.size = n →
    AllV S x → AllV S y → AllV S z → (∀ j, S.φ (gt z j) = S.φ (gt x j) + S.φ (gt y j)) →
    ∃ rx ry rz, c.base.fft.fft ox x = .ok rx ∧ c.base.fft.fft oy y = .ok ry ∧ c.base.fft.fft oz z = .ok rz ∧
      rx.size = n ∧ ry.size = n ∧ rz.size = n ∧ AllV S rx ∧ AllV S ry ∧ AllV S rz ∧ ∀ i, S.φ (gt rz i) = S.φ (gt rx i) + S.φ (gt ry i)

variable {K : Type} [Field K] {c : Code} {S : c.base.F.Sim K} {w k m n : Nat}

/-- word `f` of what the transform writes for `a` -/
def symAny (c : Code) (a : Array Nat) (f : Nat) : Nat :=
  match c.base.fft.fft (Array.replicate c.base.n 0) (zeroExtended a c.base.n) with
  | .ok r => gt r f
  | .error _ => 0

theorem AnyGood.rowV (G : AnyGood c S w k m n) {a : Array Nat} (ha : IsRow w k a) : AllV S (zeroExtended a n) := by
  intro i
  by_cases hi : i < n
  · rw [zeroExtended_gt hi]
    by_cases hj : i < k
    · exact (G.val _).mpr (ha.2 i hj)
    · rw [gt_oob (by rw [ha.1]; omega)]; exact S.zero.1
  · rw [gt_oob (by simp; omega)]; exact S.zero.1

/-- the results do not depend on what the output held -/
theorem AnyGood.run (G : AnyGood c S w k m n) {a out : Array Nat} (ha : IsRow w k a) (ho : out.size = n) :
    ∃ r, c.base.fft.fft out (zeroExtended a n) = .ok r ∧ r.size = n ∧ AllV S r ∧ ∀ f, gt r f = symAny c a f := by
  have hv := G.rowV ha
  have h0 : AllV S (Array.replicate n 0) := fun i => by
    by_cases hi : i < n
    · rw [gt_replicate hi]; exact S.zero.1
    · rw [gt_oob (by simp; omega)]; exact S.zero.1
  have hz : ∀ j, S.φ (gt (Array.replicate n 0) j) = 0 := fun j => by
    by_cases hi : j < n
    · rw [gt_replicate hi]; exact S.zero.2
    · rw [gt_oob (by simp; omega)]; exact S.zero.2
  obtain ⟨r1, r2, r3, e1, e2, e3, _, _, _, _, _, _, p0⟩ := G.fft out out out (Array.replicate n 0) (Array.replicate n 0) (Array.replicate n 0) ho ho ho
    (by simp) (by simp) (by simp) h0 h0 h0 (fun j => by rw [hz, add_zero])
  obtain ⟨x, y, z, ex, ey, ez, sx, sy, sz, vx, vy, vz, p⟩ := G.fft out out (Array.replicate n 0) (zeroExtended a n) (Array.replicate n 0) (zeroExtended a n) ho ho
    (by simp) (by simp) (by simp) (by simp) hv h0 hv (fun j => by rw [hz, add_zero])
  rw [e1] at e2 e3 ey
  cases e2
  cases e3
  cases ey
  refine ⟨x, ex, sx, vx, fun f => ?_⟩
  have : S.φ (gt r1 f) = 0 := left_eq_add.1 (p0 f)
  unfold symAny
  rw [G.hn, ez]
  exact G.full.inj (vx f) (vz f) (by rw [p f, this, add_zero])

theorem AnyGood.hspec (G : AnyGood c S w k m n) : (fec c).HSpec (symAny c) (fun _ _ => none) (fun _ => False) := by
  have hle := G.le
  have hsys := G.sys
  refine ⟨?_, ?_, ?_, ?_, ?_, ?_, ?_, ?_⟩
  · show WordSize c.base.word_size; rw [G.word]; exact G.hw
  · show 0 < c.base.n_data; rw [G.n_data]; exact G.kpos
  · show c.base.code_len = c.base.n_data + c.base.n_parities; rw [G.code_len, G.n_data, G.n_parities]
  · show c.base.n_outputs = if c.base.sys then c.base.n_parities else c.base.code_len
    rw [hsys, G.n_outputs, G.code_len]; rfl
  · show c.base.n_outputs ≤ c.base.n; rw [G.n_outputs, G.hn]; exact hle
  · intro a f ha hf
    replace ha : IsRow c.base.word_size c.base.n_data a := ha
    show _ < 256 ^ c.base.word_size
    rw [G.word, G.n_data] at ha
    rw [G.word]
    obtain ⟨r, _, _, vr, hr⟩ := G.run ha (out := Array.replicate n 0) (by simp)
    rw [← hr]
    exact (G.val _).mp (vr f)
  · intro out props off a h1 h2 h3
    replace h1 : out.size = c.base.n := h1
    replace h2 : props.size = c.base.n_outputs := h2
    replace h3 : IsRow c.base.word_size c.base.n_data a := h3
    show ∃ out' props', (c.base.transform out a >>= fun o => pure (o, props)) = .ok (out', props') ∧ out'.size = c.base.n ∧
      props'.size = c.base.n_outputs ∧ ∀ f, f < c.base.n_outputs → gt out' f = symAny c a f ∧ gt props' f = gt props f
    rw [G.hn] at h1 ⊢
    rw [G.word, G.n_data] at h3
    obtain ⟨r, er, sr, _, hr⟩ := G.run h3 h1
    refine ⟨r, props, ?_, sr, h2, fun f _ => ⟨hr f, rfl⟩⟩
    unfold FecBase.transform; rw [G.hn, er]; rfl
  · intro rows T ids props mem hrows hids hlen
    exact absurd hlen id

theorem AnyGood.sym_xor (G : AnyGood c S w k m n) {a a' : Array Nat} (ha : IsRow w k a) (ha' : IsRow w k a') (f : Nat) :
    symAny c (xorRow k a a') f = symAny c a f ^^^ symAny c a' f := by
  have hx := xorRow_isRow ha ha'
  have hle := G.le
  obtain ⟨x, y, z, ex, ey, ez, sx, sy, sz, vx, vy, vz, p⟩ := G.fft (Array.replicate n 0) (Array.replicate n 0) (Array.replicate n 0) (zeroExtended a n)
    (zeroExtended a' n) (zeroExtended (xorRow k a a') n) (by simp) (by simp) (by simp) (by simp) (by simp) (by simp) (G.rowV ha) (G.rowV ha') (G.rowV hx) (fun j => by
      by_cases hj : j < n
      · rw [zeroExtended_gt hj, zeroExtended_gt hj, zeroExtended_gt hj]
        by_cases hk : j < k
        · rw [xorRow_gt hk, ← G.xor, (S.add ((G.val _).mpr (ha.2 j hk)) ((G.val _).mpr (ha'.2 j hk))).2]
        · rw [gt_oob (by rw [hx.1]; omega), gt_oob (by rw [ha.1]; omega), gt_oob (by rw [ha'.1]; omega), S.zero.2, add_zero]
      · rw [gt_oob (by simp; omega), gt_oob (by simp; omega), gt_oob (by simp; omega), S.zero.2, add_zero])
  have hs := S.add (vx f) (vy f)
  unfold symAny
  rw [G.hn, ex, ey, ez, ← G.xor]
  exact G.full.inj (vz f) hs.1 (by rw [p f, hs.2])

open Props in
theorem mkCode_any {b w k m : Nat} (hw : w = 1 ∨ w = 2) (hF : BinSupported b (8 * w)) (hk : 0 < k) (hm : 0 < m) (hb : k + m < 2 ^ (b - 1))
    (mem : Nat → Nat) (junk : Nat → Nat → Nat) (junk3 : Nat → Nat → Nat → Nat) :
    ∃ (K : Type) (_ : Field K) (c : Code) (S : c.base.F.Sim K) (n : Nat), mkCode b w k m mem junk junk3 = .ok c ∧ AnyGood c S w k m n := by
  haveI := fact_of (size_of hF.size)
  obtain ⟨O, e, _, _⟩ := exists_binExt hF junk junk3
  have hO : IsBinExt O b (8 * w) := ⟨hF, junk, junk3, e⟩
  have BF := hO.isBinField.2
  haveI := BF.good.H.char
  have hFull : BF.sim.Full := BF.full
  have hw16 : w ≤ 16 := by omega
  obtain ⟨hsp, hl⟩ := log_tables hO (by omega)
  have hinv : ∀ x, BF.sim.V x → ∃ y, O.gf.inv x = .ok y ∧ (x ≠ 0 → BF.sim.V y) := by
    intro x hx
    by_cases h0 : x = 0
    · refine ⟨2 ^ O.F.b - 1, ?_, fun h => absurd h0 h⟩
      show O.F.inv x = _
      unfold BinExt.inv BinExt.div BinExt.divLog
      rw [hsp]
      simp [h0]
    · obtain ⟨y, ey, vy, _⟩ := BF.sim.inv hx (hFull.u hx (fun h => h0 ((hFull.eq_zero hx).1 h)))
      exact ⟨y, ey, fun _ => vy⟩
  obtain ⟨e2, ec, hle, hmin⟩ := Arith.ceil2_spec (b := b) (n := k + m) (by omega) hb
  have heb : e2 < b := by
    have := (Nat.pow_le_pow_iff_right (by omega : 1 < 2)).1 (hmin (b - 1) hb.le)
    have := hF.room
    omega
  have he1 : 1 ≤ e2 := by
    by_contra hc
    have : e2 = 0 := by omega
    subst this
    norm_num at hle
    omega
  have hlog : Arith.log2 ((2 ^ e2 : Nat) : Int) = .ok e2 := by
    rw [Arith.log2_eq (by positivity), Nat.log_pow (by omega)]
  have hg : BF.sim.V O.root := BF.root_lt
  have hs : (powerBasis O.gf O.root e2).size = e2 := by simp [powerBasis]
  have hV : ∀ j, j < e2 → BF.sim.V (gt (powerBasis O.gf O.root e2) j) := fun j hj => (Additive.powerBasis_sem hFull hg hj).1
  obtain ⟨L, Ls, eL, hLb, hW⟩ := Additive.mkB_total (S := BF.sim) hFull (fun _ _ => rfl) hinv (b := b) mem (e2 - 1) (powerBasis O.gf O.root e2)
    (by omega) (by omega) (fun j hj => hV j (by omega))
  rw [show e2 - 1 + 1 = e2 by omega] at eL
  obtain ⟨B, eB, _, _⟩ := Additive.compute_subspace_spec (S := BF.sim) (fun _ _ => rfl) (b := b) (dim := e2) (basis := powerBasis O.gf O.root e2)
    (sub := fresh mem (2 ^ e2)) mem hs heb (by simp) hV
  have emk : Additive.mk' O.gf b O.root e2 mem = .ok (L :: Ls) := by
    unfold Additive.mk'
    simp only [cassert, show e2 ≥ 1 from he1, decide_true, if_true, ok_bind]
    rw [Additive.defaultBetas_spec hFull hg he1 mem, ok_bind, eL]
  have ecB : Additive.compute_B O.gf b (L :: Ls) (fresh mem (2 ^ e2)) mem = .ok B := by
    unfold Additive.compute_B
    simp only [hLb]
    exact eB
  refine ⟨_, _, { base := { sys := false, word_size := w, n_data := k, n_parities := m, code_len := k + m, n_outputs := k + m,
                            pkt_size := 8, n := 2 ^ e2, r := 0, F := O.gf, fft := Additive.ft O.gf b (L :: Ls) mem,
                            fft_2k := Additive.ft O.gf b (L :: Ls) mem, inv_r_powers := #[], r_powers := #[] },
                  betas := B }, BF.sim, 2 ^ e2, ?_, ?_⟩
  · unfold mkCode cassert
    simp only [hw16, decide_true, if_true, ok_bind]
    rw [← bind_assoc, e, ok_bind]
    rw [ec, ok_bind, hlog, ok_bind, emk, ok_bind, ecB, ok_bind]
    rfl
  · refine ⟨hFull, ?_, fun _ _ => rfl, rfl, by rcases hw with rfl | rfl <;> simp [WordSize], rfl, rfl, rfl, rfl, rfl, rfl, hk, hle, ?_⟩
    · intro a
      rw [← two_pow_8 w]
      exact Iff.rfl
    · intro ox oy oz x y z h1 h2 h3 h4 h5 h6 vx vy vz hz
      have := Additive.fft_sum (S := BF.sim) (b := b) mem (e2 - 1) (L :: Ls) ox oy oz x y z hW (by omega)
      rw [show e2 - 1 + 1 = e2 by omega] at this
      exact this h1 h2 h3 h4 h5 h6 vx vy vz hz

end RsGf2nFftAdd
end Quad
