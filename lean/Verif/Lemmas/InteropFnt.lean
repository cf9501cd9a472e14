import Verif.Lemmas.Interop
import Verif.Lemmas.FntCode

/-!
# Fermat-number codes with different word types code alike
-/

namespace Quad.Spec.FntCode
open Quad Arith

/-- what the constructor takes from the field -/
theorem base_inv {c : FntCode} (h : c.Ok) {mem : Nat → Nat} {pkt : Nat} {B : FecBase}
    (e : RsFnt.mkBase c.b c.db c.sys c.w c.k c.m pkt mem = .ok B) :
    ∃ O n r, RingModN.IsPrimeField O (2 ^ (8 * c.w) + 1) ∧ O.gf.codeLenHC (c.m + c.k) = .ok n ∧ O.gf.nthRoot n = .ok r ∧
      RsFnt.powers O.gf r n mem = .ok B.r_powers := by
  have hpr := prime h
  have hfit : (RingModN.mk c.b c.db true (2 ^ (8 * c.w) + 1)).Fits := by
    rcases h.type with ⟨hb, hd⟩ | ⟨hb, hd⟩ | ⟨hb, hd, hw'⟩ <;> rcases h.hw with hw | hw <;> rw [hb, hd, hw] <;>
      first | exact ⟨by decide, by decide, by decide⟩ | omega
  have hb2 : c.b % 2 = 0 := by rcases h.type with ⟨hb, _⟩ | ⟨hb, _⟩ | ⟨hb, _⟩ <;> rw [hb]
  have hb0 : 0 < c.b := by rcases h.type with ⟨hb, _⟩ | ⟨hb, _⟩ | ⟨hb, _⟩ <;> omega
  obtain ⟨O, eO, hring, _⟩ := RingModN.init_spec hfit hpr hb2 hb0
  have H : RingModN.IsPrimeField O (2 ^ (8 * c.w) + 1) := ⟨hpr, by rw [hring], by rw [hring]; exact hfit, by rw [hring],
    by rw [hring]; exact hb2, by rw [hring]; exact eO⟩
  have hwrap : wrap c.b (2 ^ (8 * c.w) + 1) = 2 ^ (8 * c.w) + 1 := by
    unfold wrap
    exact Nat.mod_eq_of_lt (by
      have h1 := hfit.spare
      have h2 := Nat.two_pow_pos (8 * c.w)
      simp only at h1
      omega)
  unfold RsFnt.mkBase at e
  obtain ⟨_, _, e⟩ := bind_ok e
  simp only [hwrap] at e
  rw [eO, ok_bind] at e
  obtain ⟨_, _, e⟩ := bind_ok e
  obtain ⟨_, _, e⟩ := bind_ok e
  obtain ⟨n, en, e⟩ := bind_ok e
  obtain ⟨r, er, e⟩ := bind_ok e
  obtain ⟨_, _, e⟩ := bind_ok e
  obtain ⟨_, _, e⟩ := bind_ok e
  obtain ⟨_, _, e⟩ := bind_ok e
  obtain ⟨_, _, e⟩ := bind_ok e
  obtain ⟨_, _, e⟩ := bind_ok e
  obtain ⟨_, _, e⟩ := bind_ok e
  obtain ⟨_, _, e⟩ := bind_ok e
  obtain ⟨P, eP, e⟩ := bind_ok e
  cases e
  exact ⟨O, n, r, H, en, er, eP⟩

/-- the root of unity does not depend on the word type -/
theorem Root.same {c c' : FntCode} (h : c.Ok) (h' : c'.Ok) (hw : c'.w = c.w) (hk : c'.k = c.k) (hm : c'.m = c.m)
    {p n n' : Nat} [Fact p.Prime] {g g' : ZMod p} (r : c.Root p n g) (r' : c'.Root p n' g') : g' = g := by
  obtain ⟨mem, B, e, hg⟩ := r.gen
  obtain ⟨mem', B', e', hg'⟩ := r'.gen
  obtain ⟨O, n1, r1, H, e1, e2, e3⟩ := base_inv h e
  obtain ⟨O', n2, r2, H', e1', e2', e3'⟩ := base_inv h' e'
  have hp := r.ne
  subst hp
  rw [hw] at H'
  rw [hm, hk] at e1'
  have hk0 := h.hk
  have hm0 := h.hm
  have h3 : 2 ^ (8 * c.w) + 1 ≠ 3 := by rcases h.hw with h | h <;> rw [h] <;> decide
  have q1 := (Interop.prime_codeLen H H' (m := c.m + c.k) (by omega)).symm
  rw [e1, e1'] at q1
  cases q1
  have q2 := (Interop.prime_nthRoot H H' h3 n1).symm
  rw [e2, e2'] at q2
  cases q2
  obtain ⟨L, eL, _, hL, _⟩ := H.codeLen rfl (m := c.m + c.k) (by omega) (by have := h.len; omega)
  have hn : 1 < n1 := by
    rw [show O.gf.codeLenHC (c.m + c.k) = _ from eL] at e1
    have := Except.ok.inj e1
    omega
  obtain ⟨w0, ew, hw1, _⟩ := H.get_nth_root_spec n1
  rw [show O.gf.nthRoot n1 = _ from ew] at e2
  cases e2
  obtain ⟨P, eP, _, hP⟩ := RsFnt.powers_spec H.sim (x := r1) hw1 n1 mem
  obtain ⟨P', eP', _, hP'⟩ := RsFnt.powers_spec H'.sim (x := r1) hw1 n1 mem'
  rw [e3] at eP
  cases eP
  rw [e3'] at eP'
  cases eP'
  have k1 := (hP 1 hn).2
  have k2 := (hP' 1 hn).2
  rw [pow_one] at k1 k2
  rw [← hg, ← hg']
  exact k2.trans k1.symm

/-- the code is the same for all word types -/
theorem Encoded.same {c c' : FntCode} (h : c.Ok) (h' : c'.Ok) (hw : c'.w = c.w) (hk : c'.k = c.k) (hm : c'.m = c.m) (hs : c'.sys = c.sys)
    {data frags frags' : Array (List Nat)} {fprops fprops' : Array Properties} {T : Nat} (hd : c.Data data T)
    (e : c.Encoded data frags fprops) (e' : c'.Encoded data frags' fprops') : frags' = frags ∧ fprops' = fprops := by
  obtain ⟨p, n, i1, g, r⟩ := exists_root h
  obtain ⟨p', n', i2, g', r'⟩ := exists_root h'
  have hp : p' = p := by rw [r.ne, r'.ne, hw]
  subst hp
  have hg := Root.same h h' hw hk hm r r'
  subst hg
  have hd' : c'.Data data T := ⟨by rw [hk]; exact hd.size, by rw [hk]; exact hd.bytes, by rw [hk, hw]; exact hd.len⟩
  have a := e.isCode hd r
  have b := e'.isCode hd' r'
  have hn : c'.nOut = c.nOut := by unfold nOut; rw [hs, hm, hk]
  refine ⟨gt_ext (by rw [a.fsize, b.fsize, hn]) fun i hi => ?_, gt_ext (by rw [a.psize, b.psize, hn]) fun i hi => ?_⟩
  · rw [b.fsize, hn] at hi
    rw [a.frag i hi, b.frag i (by omega)]
    simp only [row, hw, hk, hs]
  · rw [b.psize, hn] at hi
    rw [a.prop i hi, b.prop i (by omega)]
    simp only [row, hw, hk, hs]

end Quad.Spec.FntCode
