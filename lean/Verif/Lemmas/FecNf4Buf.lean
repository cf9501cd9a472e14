import Verif.Lemmas.NF4Wide
import Verif.Model.FecNf4Buf
import Verif.Lemmas.FecNf4
import Verif.Lemmas.SimdBuild
import Verif.Lemmas.BufElem

/-!
The code over packed words meets `FecV.VSpec`.
-/

namespace Quad
open Finset Polynomial Spec NF4

/-! ### the field -/

namespace Spec.IsNf4
variable {N : NF4} {b n : Nat} {simd : Option (Nat × (Nat → Nat))} {O : NF4.Obj}

/-- a packed word with the same value in each lane -/
theorem same_lanes (H : IsNf4 N b n simd) {a : Nat} (ha : Packed n a) (h : ∀ l, l < n → (lane32 a l : ZMod 65537) = (lane32 a 0 : ZMod 65537)) :
    a = lane32 a 0 * word 32 n (fun _ => 1) ∧ lane32 a 0 < 65537 := by
  have h0 := ha.lane 0 H.build.pos
  have hw := word_packed (n := n) (f := fun _ => lane32 a 0) (fun _ _ => h0)
  refine ⟨?_, h0⟩
  rw [← word_const]
  refine packed_ext ha hw.1 (fun l hl => ?_)
  rw [hw.2 l hl]
  exact RingModN.cast_inj (ha.lane l hl) h0 (h l hl)

theorem neg_one_cast : ((65536 : Nat) : ZMod 65537) = -1 := by
  have := ZMod.natCast_self 65537
  push_cast at this ⊢
  linear_combination this

theorem sameCoef (H : IsNf4 N b n simd) (hO : N.init = .ok O) : GF.SameCoef (H.sim hO) := by
  intro a hv he l
  have hN := (H.init_factors hO).1
  have hc : O.gf.cardM1 = N.h := by show O.N.h = _; rw [hN]
  have ha : Packed n a := hv l
  obtain ⟨e, h0⟩ := H.same_lanes ha (fun l' hl' => he ⟨l', hl'⟩ ⟨0, H.build.pos⟩)
  have hl : (lane32 a l : ZMod 65537) = (lane32 a 0 : ZMod 65537) := he l ⟨0, H.build.pos⟩
  have h1 := (show 0 < word 32 n (fun _ => 1) by have := word_one_odd H.build.pos; omega)
  refine ⟨ha, ?_, fun h => ?_, fun h => ?_⟩
  · rw [hc, H.h_eq, e]
    exact Nat.mul_le_mul_right _ (by omega)
  · show (lane32 a l : ZMod 65537) = 1
    rw [hl, h, (H.packed_small (v := 1) (by norm_num)).2.1]; simp
  · show (lane32 a l : ZMod 65537) = -1
    rw [hc, H.h_eq, e] at h
    have : lane32 a 0 = 2 ^ 16 := Nat.eq_of_mul_eq_mul_right h1 (by
      have e2 := congrArg (fun x => lane32 x 0) e
      exact h)
    rw [hl, this]
    exact neg_one_cast

/-- with one lane in a `uint32_t`, the field is that of the integers modulo 65537 -/
theorem modP (H : IsNf4 N b 1 simd) (hO : N.init = .ok O) {F : GF} (hF : F = O.gf) : F.ModP 65537 := by
  subst hF
  have hN := (H.init_factors hO).1
  have hl : ∀ {c : Nat}, Packed 1 c → lane32 c 0 = c := fun {c} hc => by
    have := hc.lt
    unfold lane32; rw [Nat.mul_zero, pow_zero, Nat.div_one]; exact Nat.mod_eq_of_lt (by simpa using this)
  have key : ∀ {a c : Nat}, (H.sim hO 0).V a → (H.sim hO 0).φ a = (c : ZMod 65537) → a = c % 65537 := by
    intro a c ha h
    have h' : (lane32 a 0 : ZMod 65537) = c := h
    have ha' : Packed 1 a := ha
    have hlt := ha'.lane 0 (by norm_num)
    rw [hl ha'] at h' hlt
    have := (ZMod.natCast_eq_natCast_iff' _ _ _).mp h'
    rwa [Nat.mod_eq_of_lt hlt] at this
  have hv : ∀ {x : Nat}, x < 65537 → (H.sim hO 0).V x ∧ (H.sim hO 0).φ x = (x : ZMod 65537) := fun {x} hx => by
    obtain ⟨h1, h2, _⟩ := H.packed_small hx
    exact ⟨h1, congrArg Nat.cast h2⟩
  refine ⟨?_, ?_, fun x y hx hy => ?_, fun x y hx hy => ?_, fun x y hx hy => ?_⟩
  · show O.N.replicate 65537 = _
    rw [hN, H.replicate_eq (by norm_num)]; norm_num [word]
  · show O.N.h = _
    rw [hN, H.h_eq]; norm_num [word]
  · have := (H.sim hO 0).add (hv hx).1 (hv hy).1
    exact key this.1 (by rw [this.2, (hv hx).2, (hv hy).2]; push_cast; rfl)
  · have := (H.sim hO 0).sub (hv hx).1 (hv hy).1
    exact key this.1 (by rw [this.2, (hv hx).2, (hv hy).2, Nat.cast_add, Nat.cast_sub hy.le, ZMod.natCast_self]; ring)
  · have := (H.sim hO 0).mul (hv hx).1 (hv hy).1
    exact key this.1 (by rw [this.2, (hv hx).2, (hv hy).2]; push_cast; rfl)

/-- which functions a build uses -/
theorem build_of (H : IsNf4 N b n simd) {reg : Option Nat} (hr : Nf4Reg reg) :
    Build.of reg b = .scalar ∨ (n = 1 ∧ ∃ R, Simd.RegSize R ∧ Build.of reg b = .simd R 4) := by
  have hf := H.build.fit
  have hp := H.build.pos
  unfold Build.of
  rcases hr with rfl | rfl | rfl
  · exact .inl rfl
  all_goals
    rcases H.build.width with rfl | rfl | rfl
    · refine .inr ⟨by omega, _, ?_, rfl⟩
      first | exact .inl rfl | exact .inr rfl
    · exact .inl rfl
    · exact .inl rfl

/-- the radix-2 transform on packets of packed words -/
theorem fthSpec (H : IsNf4 N b n simd) (hO : N.init = .ok O) {L dl pkt w g : Nat} (hL : L ≤ 16) (hdl0 : 0 < dl) (hdl : dl ≤ 2 ^ L)
    (ew : O.gf.nthRoot (2 ^ L) = .ok w) (hg : IsPrimitiveRoot (g : ZMod 65537) (2 ^ L))
    (hw : ∀ l, (H.sim hO l).V w ∧ (H.sim hO l).φ w = (g : ZMod 65537)) {reg : Option Nat} (hr : Nf4Reg reg)
    {R : Radix2} (eR : Radix2.mk' O.gf (2 ^ L) dl = .ok R) (l : Fin n) :
    ((Build.of reg b).fth R pkt).Spec (H.sim hO l) pkt (2 ^ L) (g : ZMod 65537)
      (fun m => 0 < m ∧ ∃ d, d ≤ L ∧ (if m > dl then m else dl) = 2 ^ d) := by
  have hlt : 2 ^ L < 65537 := lt_of_le_of_lt (Nat.pow_le_pow_right (by norm_num) hL) (by norm_num)
  obtain ⟨iv, ei, hi⟩ := H.invN hO (m := 2 ^ L) hlt
  obtain ⟨R', e', hF, ⟨S, hV, hφ, _, hG⟩, hd, h3, h4⟩ := Radix2.mk'_spec (H.sim hO l) (L := L) (dl := dl) (w := w) (inv_n := iv)
    (by show (65537 - 1) % 2 ^ L = 0; exact Nat.mod_eq_zero_of_dvd (pow_dvd_pow 2 hL)) hdl ew (hw l).1 trivial
    (by rw [(hw l).2]; exact hg) ei (fun _ => by omega)
  rw [eR] at e'; cases e'
  rw [if_pos hdl0] at hd
  have hc := H.sameCoef hO iv (fun l => (hi l).1) (fun l l' => by rw [(hi l).2, (hi l').2]) l
  have hc' : S.Coef R.inv_n := by
    rw [h3]
    exact ⟨(hV _).mpr hc.V, by rw [hF]; exact hc.le, fun h => by rw [hφ]; exact hc.one h,
      fun h => by rw [hφ]; exact hc.neg (by rw [← hF]; exact h)⟩
  have hiv : S.φ R.inv_n = ((2 ^ L : Nat) : ZMod 65537)⁻¹ := by rw [h3, hφ]; exact (hi l).2
  have hgw : S.φ R.w = (g : ZMod 65537) := by rw [h4, hφ]; exact (hw l).2
  rcases H.build_of hr with hb | ⟨rfl, Rg, hRg, hb⟩
  · rw [hb]
    have := Radix2.fth_spec hG (pkt := pkt) (by omega) (by rw [hd]; exact hdl0) hc' hiv
    rw [hgw, hd] at this
    exact this.congr hV hφ
  · rw [hb]
    have := Radix2.fthV_spec hG hRg (.inr rfl) (H.modP hO hF) (fun c hc => by
        have : Packed 1 c := (hV c).mp hc
        have h5 := this.lane 0 (by norm_num)
        have h6 := this.lt
        unfold lane32 at h5
        rwa [Nat.mul_zero, pow_zero, Nat.div_one, Nat.mod_eq_of_lt (by simpa using h6)] at h5)
      (pkt := pkt) (by omega) (by rw [hd]; exact hdl0) hc' hiv
    rw [hgw, hd] at this
    exact this.congr hV hφ

theorem ops (H : IsNf4 N b n simd) (hO : N.init = .ok O) {reg : Option Nat} (hr : Nf4Reg reg) (l : Fin n) :
    (Build.of reg b).Ops (H.sim hO l) := by
  rcases H.build_of hr with hb | ⟨rfl, Rg, hRg, hb⟩
  · rw [hb]; exact Build.scalar_ops _
  · rw [hb]
    have hV : ∀ c, (H.sim hO l).V c → c < Simd.P 4 := fun c hc => by
        have : Packed 1 c := hc
        have h5 := this.lane 0 (by norm_num)
        have h6 := this.lt
        unfold lane32 at h5
        rwa [Nat.mul_zero, pow_zero, Nat.div_one, Nat.mod_eq_of_lt (by simpa using h6)] at h5
    have hF := H.modP hO rfl
    refine ⟨?_, ?_⟩
    · intro u src dest H' pkt a1 a2 a3 a4 a5 a6 a7 a8 a9 a10
      have e := Simd.mul_vec_eq hRg (.inr rfl) hF hV a1 a2 a3 a4 a5 a6 a7 a8 a9 a10
      show ∃ H'', Simd.mul_vec_to_vecp Rg 4 O.gf u src dest H' = _ ∧ _
      rw [e]
      exact mul_vec_to_vecp_spec a1 a2 a3 a4 a5 a6 a7 a8 a9 a10
    · intro B H' pkt a1 a2 a3 a4 a5
      have e := Simd.negBufs_eq hRg (.inr rfl) hF hV a1 a2 a3 a4 a5
      show ∃ H'', Simd.negBufs Rg 4 O.gf B H' = _ ∧ _
      rw [e]
      exact negBufs_spec a1 a2 a3 a4 a5

/-- the transforms of a build whose functions act on more lanes than the field has are not vectorised -/
theorem build_wide (H : IsNf4 N b n simd) {reg : Option Nat} (hr : Nf4Reg reg) :
    wide n simd = n ∨ Build.of reg b = .scalar := by
  unfold wide
  by_cases hs : simd.isSome
  · rw [if_pos hs]
    obtain ⟨⟨R, hi⟩, e⟩ := Option.isSome_iff_exists.mp hs
    obtain rfl := (H.build.vec R hi e).1
    refine .inr ?_
    unfold Build.of
    rcases hr with rfl | rfl | rfl <;> rfl
  · rw [if_neg hs]; exact .inl rfl

/-- the same for words with all the lanes -/
theorem fthSpecW (H : IsNf4 N b n simd) (hO : N.init = .ok O) {L dl pkt w g : Nat} (hL : L ≤ 16) (hdl0 : 0 < dl) (hdl : dl ≤ 2 ^ L)
    (ew : O.gf.nthRoot (2 ^ L) = .ok w) (hg : IsPrimitiveRoot (g : ZMod 65537) (2 ^ L))
    (hw : ∀ l, (H.sim hO l).V w ∧ (H.sim hO l).φ w = (g : ZMod 65537)) {reg : Option Nat} (hr : Nf4Reg reg)
    {R : Radix2} (eR : Radix2.mk' O.gf (2 ^ L) dl = .ok R) (l : Fin n) :
    ((Build.of reg b).fth R pkt).Spec (H.simW hO l) pkt (2 ^ L) (g : ZMod 65537)
      (fun m => 0 < m ∧ ∃ d, d ≤ L ∧ (if m > dl then m else dl) = 2 ^ d) := by
  rcases H.build_wide hr with hwd | hb
  · refine FTH.Spec.congr (S := H.sim hO l) (fun c => ?_) (fun c => rfl) (H.fthSpec hO hL hdl0 hdl ew hg hw hr eR l)
    show Packed n c ↔ Packed (wide n simd) c
    rw [hwd]
  have hlt : 2 ^ L < 65537 := lt_of_le_of_lt (Nat.pow_le_pow_right (by norm_num) hL) (by norm_num)
  obtain ⟨iv, ei, hi⟩ := H.invN hO (m := 2 ^ L) hlt
  obtain ⟨R', e', hF, ⟨S, hV, hφ, _, hG⟩, hd, h3, h4⟩ := Radix2.mk'_spec (H.simW hO l) (L := L) (dl := dl) (w := w) (inv_n := iv)
    (by show (65537 - 1) % 2 ^ L = 0; exact Nat.mod_eq_zero_of_dvd (pow_dvd_pow 2 hL)) hdl ew (((hw l).1 : Packed n w).up H.le_wide) (hw l).1
    (by rw [show (H.simW hO l).φ w = (H.sim hO l).φ w from rfl, (hw l).2]; exact hg) ei (fun _ => by omega)
  rw [eR] at e'; cases e'
  rw [if_pos hdl0] at hd
  have hc := H.sameCoef hO iv (fun l => (hi l).1) (fun l l' => by rw [(hi l).2, (hi l').2]) l
  have hc' : S.Coef R.inv_n := by
    rw [h3]
    exact ⟨(hV _).mpr ((hc.V : Packed n _).up H.le_wide), by rw [hF]; exact hc.le, fun h => by rw [hφ]; exact hc.one h,
      fun h => by rw [hφ]; exact hc.neg (by rw [← hF]; exact h)⟩
  have hiv : S.φ R.inv_n = ((2 ^ L : Nat) : ZMod 65537)⁻¹ := by rw [h3, hφ]; exact (hi l).2
  have hgw : S.φ R.w = (g : ZMod 65537) := by rw [h4, hφ]; exact (hw l).2
  rw [hb]
  have := Radix2.fth_spec hG (pkt := pkt) (by omega) (by rw [hd]; exact hdl0) hc' hiv
  rw [hgw, hd] at this
  exact this.congr hV hφ

theorem opsW (H : IsNf4 N b n simd) (hO : N.init = .ok O) {reg : Option Nat} (hr : Nf4Reg reg) (l : Fin n) :
    (Build.of reg b).Ops (H.simW hO l) := by
  rcases H.build_wide hr with hwd | hb
  · have hV : (H.simW hO l).V = (H.sim hO l).V := by
      show Packed (wide n simd) = Packed n
      rw [hwd]
    have hφ : (H.simW hO l).φ = (H.sim hO l).φ := rfl
    have hC : ∀ c, (H.simW hO l).Coef c → (H.sim hO l).Coef c := fun c h => ⟨hV ▸ h.V, h.le, h.one, h.neg⟩
    have := H.ops hO hr l
    refine ⟨fun {u src dest H' pkt} a1 a2 a3 a4 a5 a6 a7 a8 a9 a10 => ?_, fun {B H' pkt} a1 a2 a3 a4 a5 => ?_⟩
    · rw [hV] at a10 ⊢
      exact this.mulv a1 a2 a3 a4 a5 a6 (fun i hi => hC _ (a7 i hi)) a8 a9 a10
    · rw [hV] at a5 ⊢
      exact this.negv a1 a2 a3 a4 a5
  · rw [hb]; exact Build.scalar_ops _

end Spec.IsNf4

namespace RsNf4Obj
variable {R : RsNf4Obj}

/-! ### loops -/

theorem mapChunks_spec {f : Nat → Nat} {count : Nat} {B : Bufs} {H : Heap} (h1 : count ≤ B.n) (h2 : count ≤ B.mem.size)
    (hinj : InjPtr B.mem) (hok : Okb R.code.base.pkt_size H B.mem) :
    ∃ H', R.mapChunks f count B H = .ok H' ∧ Frame B.mem H H' ∧ Okb R.code.base.pkt_size H' B.mem ∧
      ∀ i, i < count → ∀ c, c < R.code.base.pkt_size → el H' (gt B.mem i) c = f (el H (gt B.mem i) c) := by
  set pkt := R.code.base.pkt_size with hpkt
  unfold mapChunks
  rw [← hpkt]
  obtain ⟨H', e, fr, g, o⟩ := rowLoop (dest := B.mem) (pkt := pkt) (m := count) (H := H)
    (P := fun i H x => ∀ c, c < pkt → gt x c = f (el H (gt B.mem i) c))
    (body := fun i H => do
      let chunk ← B.get i
      forN pkt H (fun j H => do
        let x ← Heap.rdEl H chunk j
        Heap.wrEl H chunk j (f x))) hinj h2 (by
      intro i Ha Hb x hi h hx c hc
      have := hx c hc
      unfold el at this ⊢
      rwa [h _ (fun j hj he => by have := hinj j i (by omega) (by omega) he; omega)] at this) (by
      intro i Ha hi hsz h
      have he : gt Ha (gt B.mem i) = gt H (gt B.mem i) := h _ (fun j hj he => by
        have := hinj j i (by omega) (by omega) he; omega)
      have hb := hok i (by omega)
      rw [Bufs.get_ok (by omega) (by omega), ok_bind]
      obtain ⟨Hc, ec, oc, sc, gc⟩ := blockLoop (H := Ha) (d := gt B.mem i) (pkt := pkt) (f := fun c => f (el Ha (gt B.mem i) c))
        (body := fun j H => do
          let x ← Heap.rdEl H (gt B.mem i) j
          Heap.wrEl H (gt B.mem i) j (f x)) (by omega) (by rw [he]; exact hb.2) (by
          intro j H1 hj o1 s1 g1
          rw [Heap.rdEl_ok (by rw [o1.1]; omega) (by omega), ok_bind, g1, if_neg (by omega)]
          rfl)
      exact ⟨Hc, ec, oc, sc, gc⟩)
  refine ⟨H', e, fr, fun i hi => ⟨by rw [fr.size]; exact (hok i hi).1, ?_⟩, fun i hi c hc => (g i hi).2 c hc⟩
  by_cases hic : i < count
  · exact (g i hic).1
  · rw [o _ (fun j hj he => by have := hinj j i (by omega) hi he; omega)]
    exact (hok i hi).2

/-- the mark `encode_post_process` gives to a symbol -/
def flagOf (N : NF4) (x : Nat) : Option Nat := if (N.unpack x).2 > 0 then some (N.unpack x).2 else none

theorem postLoop_spec {chunk frag size off : Nat} {props : Array Properties} {H : Heap} (hc : chunk < H.size)
    (hs : (gt H chunk).size = size) (hf : frag < props.size) :
    ∃ p H', R.postLoop chunk frag size off props H = .ok (p, H') ∧ OnlyAt chunk H H' ∧ (gt H' chunk).size = size ∧
      (∀ c, c < size → el H' chunk c = (R.N.unpack (el H chunk c)).1) ∧ p.size = props.size ∧
      gt p frag = ⟨(gt props frag).props ++ (marksOf (fun c => flagOf R.N (el H chunk c)) size).map (fun x => (off + x.1, x.2))⟩ ∧
      ∀ f, f ≠ frag → gt p f = gt props f := by
  obtain ⟨s, e, i1, i2, i3, i4, i5, i6⟩ := forN_inv (n := size) (s := (props, H)) (f := fun j s => do
      let x ← Heap.rdEl s.2 chunk j
      let t := R.N.unpack x
      let props ← if t.2 > 0 then do
          let P ← rd s.1 frag
          wr s.1 frag (P.add (off + j) t.2)
        else pure s.1
      let H ← Heap.wrEl s.2 chunk j t.1
      pure (props, H))
    (I := fun t (s : Array Properties × Heap) => OnlyAt chunk H s.2 ∧ (gt s.2 chunk).size = size ∧
      (∀ c, gt (gt s.2 chunk) c = if c < t then (R.N.unpack (el H chunk c)).1 else el H chunk c) ∧ s.1.size = props.size ∧
      gt s.1 frag = ⟨(gt props frag).props ++ (marksOf (fun c => flagOf R.N (el H chunk c)) t).map (fun x => (off + x.1, x.2))⟩ ∧
      ∀ f, f ≠ frag → gt s.1 f = gt props f)
    ⟨⟨rfl, fun _ _ => rfl⟩, hs, by simp [el], rfl, by simp [marksOf], fun _ _ => rfl⟩ (by
      rintro t ⟨p, Ha⟩ ht ⟨i1, i2, i3, i4, i5, i6⟩
      simp only at i1 i2 i3 i4 i5 i6 ⊢
      have hca : chunk < Ha.size := by rw [i1.1]; exact hc
      have hHa : ∀ v, (OnlyAt chunk H (Ha.setIfInBounds chunk ((gt Ha chunk).setIfInBounds t v)) ∧
          (gt (Ha.setIfInBounds chunk ((gt Ha chunk).setIfInBounds t v)) chunk).size = size ∧
          ∀ c, gt (gt (Ha.setIfInBounds chunk ((gt Ha chunk).setIfInBounds t v)) chunk) c = if c = t then v else gt (gt Ha chunk) c) := by
        intro v
        refine ⟨⟨by simp [i1.1], fun b hb => by rw [gt_set hca, if_neg hb]; exact i1.2 b hb⟩, ?_, fun c => ?_⟩
        · rw [gt_set hca, if_pos rfl]; simpa using i2
        · rw [gt_set hca, if_pos rfl, gt_set (by omega)]
      have hval : ∀ c, (if c = t then (R.N.unpack (el H chunk t)).1 else gt (gt Ha chunk) c)
          = if c < t + 1 then (R.N.unpack (el H chunk c)).1 else el H chunk c := by
        intro c
        rw [i3]
        by_cases h : c = t
        · subst h; rw [if_pos rfl, if_pos (by omega)]
        · rw [if_neg h]
          by_cases h' : c < t
          · rw [if_pos h', if_pos (by omega)]
          · rw [if_neg h', if_neg (by omega)]
      have hx : gt (gt Ha chunk) t = el H chunk t := by rw [i3, if_neg (by omega)]
      have hts : t < (gt Ha chunk).size := by omega
      rw [Heap.rdEl_ok hca hts, ok_bind, hx]
      by_cases hm : (R.N.unpack (el H chunk t)).2 > 0
      · rw [if_pos hm, rd_gt (a := p) (by omega), ok_bind, wr_ok (by omega), ok_bind, Heap.wrEl_ok hca hts, ok_bind]
        obtain ⟨q1, q2, q3⟩ := hHa (R.N.unpack (el H chunk t)).1
        refine ⟨_, rfl, q1, q2, fun c => by rw [q3, hval], by simp [i4], ?_, ?_⟩
        · simp only
          rw [gt_set (by omega), if_pos rfl, i5, marksOf_succ]
          simp [flagOf, hm, Properties.add]
        · intro f hf'
          simp only
          rw [gt_set (by omega), if_neg hf']; exact i6 f hf'
      · rw [if_neg hm]
        simp only [pure, Except.pure, ok_bind]
        rw [Heap.wrEl_ok hca hts, ok_bind]
        obtain ⟨q1, q2, q3⟩ := hHa (R.N.unpack (el H chunk t)).1
        refine ⟨_, rfl, q1, q2, fun c => by rw [q3, hval], i4, ?_, i6⟩
        simp only
        rw [i5, marksOf_succ]
        simp [flagOf, hm])
  exact ⟨s.1, s.2, e, i1, i2, fun c hc' => by unfold el; rw [i3, if_pos hc']; rfl, i4, i5, i6⟩

theorem encode_post_process_spec {output : Bufs} {props : Array Properties} {off : Nat} {H : Heap}
    (h1 : R.code.base.code_len ≤ output.n) (h2 : R.code.base.code_len ≤ output.mem.size) (h3 : R.code.base.code_len ≤ props.size)
    (hinj : InjPtr output.mem) (hok : Okb output.size H output.mem) :
    ∃ p H', R.encode_post_process output props off H = .ok (p, H') ∧ Frame output.mem H H' ∧ Okb output.size H' output.mem ∧
      p.size = props.size ∧ ∀ f, f < R.code.base.code_len →
        (∀ c, c < output.size → el H' (gt output.mem f) c = (R.N.unpack (el H (gt output.mem f) c)).1) ∧
        gt p f = ⟨(gt props f).props ++ (marksOf (fun c => flagOf R.N (el H (gt output.mem f) c)) output.size).map (fun x => (off + x.1, x.2))⟩ := by
  obtain ⟨s, e, i1, i2, i3, i4, i5, i6⟩ := forN_inv (n := R.code.base.code_len) (s := (props, H)) (f := fun i s => do
      let chunk ← output.get i
      R.postLoop chunk i output.size off s.1 s.2)
    (I := fun t (s : Array Properties × Heap) => Frame output.mem H s.2 ∧ Okb output.size s.2 output.mem ∧
      s.1.size = props.size ∧ (∀ f, f < t →
        (∀ c, c < output.size → el s.2 (gt output.mem f) c = (R.N.unpack (el H (gt output.mem f) c)).1) ∧
        gt s.1 f = ⟨(gt props f).props ++ (marksOf (fun c => flagOf R.N (el H (gt output.mem f) c)) output.size).map (fun x => (off + x.1, x.2))⟩) ∧
      (∀ f, t ≤ f → f < output.mem.size → gt s.2 (gt output.mem f) = gt H (gt output.mem f)) ∧ ∀ f, t ≤ f → gt s.1 f = gt props f)
    ⟨Frame.refl _ _, hok, rfl, by simp, fun _ _ _ => rfl, fun _ _ => rfl⟩ (by
      rintro t ⟨p, Ha⟩ ht ⟨i1, i2, i3, i4, i5, i6⟩
      simp only at i1 i2 i3 i4 i5 i6 ⊢
      have hb := i2 t (by omega)
      rw [Bufs.get_ok (by omega) (by omega), ok_bind]
      obtain ⟨p', H', ep, o, sz, v, sp, g1, g2⟩ := postLoop_spec (R := R) (frag := t) (off := off) (props := p) hb.1 hb.2 (by omega)
      have heq : ∀ c, el Ha (gt output.mem t) c = el H (gt output.mem t) c := fun c => by
        unfold el; rw [i5 t le_rfl (by omega)]
      simp only [heq] at v g1
      have hne : ∀ f, f < output.mem.size → f ≠ t → gt output.mem f ≠ gt output.mem t := fun f hf hft he =>
        hft (hinj f t hf (by omega) he)
      refine ⟨_, ep, ?_, ?_, by simp only; omega, ?_, ?_, ?_⟩
      · refine ⟨by simp only; rw [o.1, i1.size], fun b hb' => ?_⟩
        simp only
        rw [o.2 b (fun he => hb' t (by omega) he.symm)]
        exact i1.out b hb'
      · intro f hf
        simp only
        refine ⟨by rw [o.1]; exact (i2 f hf).1, ?_⟩
        by_cases h : f = t
        · subst h; exact sz
        · rw [o.2 _ (hne f hf h)]; exact (i2 f hf).2
      · intro f hf
        simp only
        by_cases h : f = t
        · subst h
          refine ⟨v, ?_⟩
          rw [g1, i6 f le_rfl]
        · obtain ⟨a1, a2⟩ := i4 f (by omega)
          refine ⟨fun c hc => ?_, by rw [g2 f h, a2]⟩
          rw [← a1 c hc]
          unfold el
          rw [o.2 _ (hne f (by omega) h)]
      · intro f hf hf'
        simp only
        rw [o.2 _ (hne f hf' (by omega))]
        exact i5 f (by omega) hf'
      · intro f hf
        simp only
        rw [g2 f (by omega)]; exact i6 f (by omega))
  exact ⟨s.1, s.2, e, i1, i2, i3, i4⟩

/-- the symbol packed from a stored word and its mark -/
def unmark (N : NF4) (x : Nat) : Option Nat → Nat
  | some m => N.packFlag x m
  | none => N.pack x

theorem prepLoop_spec {props : Array Properties} {chunk frag off T : Nat} {pi : Array Nat} {H : Heap} {mk : Nat → Option Nat}
    (hc : chunk < H.size) (hs : (gt H chunk).size = R.code.base.pkt_size) (hf : frag < props.size) (hfp : frag < pi.size)
    (hP : (gt props frag).props = marksOf mk T) (hpi : gt pi frag = (marksOf mk off).length) (hT : off + R.code.base.pkt_size ≤ T) :
    ∃ pi' H', R.prepLoop props chunk frag off pi H = .ok (pi', H') ∧ OnlyAt chunk H H' ∧ (gt H' chunk).size = R.code.base.pkt_size ∧
      (∀ c, c < R.code.base.pkt_size → el H' chunk c = unmark R.N (el H chunk c) (mk (off + c))) ∧ pi'.size = pi.size ∧
      gt pi' frag = (marksOf mk (off + R.code.base.pkt_size)).length ∧ ∀ f, f ≠ frag → gt pi' f = gt pi f := by
  set pkt := R.code.base.pkt_size with hpkt
  obtain ⟨s, e, i1, i2, i3, i4, i5, i6⟩ := forN_inv (n := pkt) (s := (pi, H)) (f := fun j s => do
      let P ← rd props frag
      let idx ← rd s.1 frag
      let x ← Heap.rdEl s.2 chunk j
      if P.is_marked idx (off + j) then do
        let H ← Heap.wrEl s.2 chunk j (R.N.packFlag x (P.marker idx))
        let pi ← wr s.1 frag (idx + 1)
        pure (pi, H)
      else do
        let H ← Heap.wrEl s.2 chunk j (R.N.pack x)
        pure (s.1, H))
    (I := fun t (s : Array Nat × Heap) => OnlyAt chunk H s.2 ∧ (gt s.2 chunk).size = pkt ∧
      (∀ c, gt (gt s.2 chunk) c = if c < t then unmark R.N (el H chunk c) (mk (off + c)) else el H chunk c) ∧ s.1.size = pi.size ∧
      gt s.1 frag = (marksOf mk (off + t)).length ∧ ∀ f, f ≠ frag → gt s.1 f = gt pi f)
    ⟨⟨rfl, fun _ _ => rfl⟩, hs, by simp [el], rfl, hpi, fun _ _ => rfl⟩ (by
      rintro t ⟨p, Ha⟩ ht ⟨i1, i2, i3, i4, i5, i6⟩
      simp only at i1 i2 i3 i4 i5 i6 ⊢
      have hca : chunk < Ha.size := by rw [i1.1]; exact hc
      have hHa : ∀ v, (OnlyAt chunk H (Ha.setIfInBounds chunk ((gt Ha chunk).setIfInBounds t v)) ∧
          (gt (Ha.setIfInBounds chunk ((gt Ha chunk).setIfInBounds t v)) chunk).size = pkt ∧
          ∀ c, gt (gt (Ha.setIfInBounds chunk ((gt Ha chunk).setIfInBounds t v)) chunk) c = if c = t then v else gt (gt Ha chunk) c) := by
        intro v
        refine ⟨⟨by simp [i1.1], fun b hb => by rw [gt_set hca, if_neg hb]; exact i1.2 b hb⟩, ?_, fun c => ?_⟩
        · rw [gt_set hca, if_pos rfl]; simpa using i2
        · rw [gt_set hca, if_pos rfl, gt_set (by omega)]
      have hval : ∀ c, (if c = t then unmark R.N (el H chunk t) (mk (off + t)) else gt (gt Ha chunk) c)
          = if c < t + 1 then unmark R.N (el H chunk c) (mk (off + c)) else el H chunk c := by
        intro c
        rw [i3]
        by_cases h : c = t
        · subst h; rw [if_pos rfl, if_pos (by omega)]
        · rw [if_neg h]
          by_cases h' : c < t
          · rw [if_pos h', if_pos (by omega)]
          · rw [if_neg h', if_neg (by omega)]
      have hx : gt (gt Ha chunk) t = el H chunk t := by rw [i3, if_neg (by omega)]
      have hts : t < (gt Ha chunk).size := by omega
      have hat := marksOf_at (f := mk) (T := T) (t := off + t) (by omega) hP
      rw [rd_gt (a := props) hf, ok_bind, rd_gt (a := p) (by omega), ok_bind, Heap.rdEl_ok hca hts, ok_bind, hx, i5]
      cases hm : mk (off + t) with
      | some mm =>
        obtain ⟨r1, r2⟩ := hat.1 mm hm
        rw [if_pos r1, r2, Heap.wrEl_ok hca hts, ok_bind, wr_ok (by omega), ok_bind]
        obtain ⟨q1, q2, q3⟩ := hHa (R.N.packFlag (el H chunk t) mm)
        rw [hm] at hval
        refine ⟨_, rfl, q1, q2, fun c => by rw [q3]; exact hval c, by simp [i4], ?_, ?_⟩
        · simp only
          rw [gt_set (by omega), if_pos rfl, ← Nat.add_assoc, marksOf_succ, hm]
          simp
        · intro f hf'
          simp only
          rw [gt_set (by omega), if_neg hf']; exact i6 f hf'
      | none =>
        rw [if_neg (by rw [hat.2 hm]; simp), Heap.wrEl_ok hca hts, ok_bind]
        obtain ⟨q1, q2, q3⟩ := hHa (R.N.pack (el H chunk t))
        rw [hm] at hval
        refine ⟨_, rfl, q1, q2, fun c => by rw [q3]; exact hval c, i4, ?_, i6⟩
        simp only
        rw [i5, ← Nat.add_assoc, marksOf_succ, hm]
        simp)
  refine ⟨s.1, s.2, ?_, i1, i2, fun c hc' => by unfold el; rw [i3, if_pos hc']; rfl, i4, i5, i6⟩
  unfold prepLoop
  exact e

theorem decode_prepare_spec {C : CtxB} {props : Array Properties} {off T N : Nat} {words : Bufs} {H : Heap} {mk : Nat → Nat → Option Nat}
    (hids : ValidIds R.code.base.n_data N C.fragments_ids) (hps : props.size = N) (hpi : C.props_indices.size = N)
    (hpr : ∀ i, i < R.code.base.n_data → (gt props (gt C.fragments_ids i)).props = marksOf (mk (gt C.fragments_ids i)) T ∧
      gt C.props_indices (gt C.fragments_ids i) = (marksOf (mk (gt C.fragments_ids i)) off).length)
    (hT : off + R.code.base.pkt_size ≤ T) (hwn : words.n = R.code.base.n_data) (hwm : words.mem.size = R.code.base.n_data)
    (hinj : InjPtr words.mem) (hok : Okb R.code.base.pkt_size H words.mem) :
    ∃ pi H', R.decode_prepare C props off words H = .ok ({ C with props_indices := pi }, H') ∧ pi.size = N ∧ Frame words.mem H H' ∧
      Okb R.code.base.pkt_size H' words.mem ∧
      (∀ i, i < R.code.base.n_data → gt pi (gt C.fragments_ids i) = (marksOf (mk (gt C.fragments_ids i)) (off + R.code.base.pkt_size)).length) ∧
      ∀ i, i < R.code.base.n_data → ∀ c, c < R.code.base.pkt_size →
        el H' (gt words.mem i) c = unmark R.N (el H (gt words.mem i) c) (mk (gt C.fragments_ids i) (off + c)) := by
  have hsz := hids.size
  obtain ⟨s, e, i1, i2, i3, i4, _⟩ := forN_inv (n := R.code.base.n_data) (s := (C.props_indices, H)) (f := fun i s => do
      let frag_id ← rd C.fragments_ids i
      let chunk ← words.get i
      R.prepLoop props chunk frag_id off s.1 s.2)
    (I := fun t (s : Array Nat × Heap) => s.1.size = N ∧ Frame words.mem H s.2 ∧ Okb R.code.base.pkt_size s.2 words.mem ∧
      (∀ i, i < t → gt s.1 (gt C.fragments_ids i) = (marksOf (mk (gt C.fragments_ids i)) (off + R.code.base.pkt_size)).length ∧
        ∀ c, c < R.code.base.pkt_size →
          el s.2 (gt words.mem i) c = unmark R.N (el H (gt words.mem i) c) (mk (gt C.fragments_ids i) (off + c))) ∧
      ∀ i, t ≤ i → i < R.code.base.n_data → gt s.2 (gt words.mem i) = gt H (gt words.mem i) ∧
        gt s.1 (gt C.fragments_ids i) = gt C.props_indices (gt C.fragments_ids i))
    ⟨hpi, Frame.refl _ _, hok, by simp, fun _ _ _ => ⟨rfl, rfl⟩⟩ (by
      rintro t ⟨p, Ha⟩ ht ⟨i1, i2, i3, i4, i5⟩
      simp only at i1 i2 i3 i4 i5 ⊢
      have hb := i3 t (by omega)
      have hlt := hids.lt t ht
      obtain ⟨a1, a2⟩ := i5 t le_rfl ht
      rw [rd_gt (a := C.fragments_ids) (by omega), ok_bind, Bufs.get_ok (by omega) (by omega), ok_bind]
      obtain ⟨p', H', ep, o, sz, v, sp, g1, g2⟩ := prepLoop_spec (R := R) (props := props) (off := off) (pi := p)
        hb.1 hb.2 (show gt C.fragments_ids t < props.size by omega) (by omega) (hpr t ht).1 (by rw [a2]; exact (hpr t ht).2) hT
      have hne : ∀ f, f < words.mem.size → f ≠ t → gt words.mem f ≠ gt words.mem t := fun f hf hft he =>
        hft (hinj f t hf (by omega) he)
      have hne2 : ∀ f, f < R.code.base.n_data → f ≠ t → gt C.fragments_ids f ≠ gt C.fragments_ids t := fun f hf hft he =>
        hft (hids.inj f t hf ht he)
      refine ⟨_, ep, by simp only; omega, ?_, ?_, ?_, ?_⟩
      · refine ⟨by simp only; rw [o.1, i2.size], fun b hb' => ?_⟩
        simp only
        rw [o.2 b (fun he => hb' t (by omega) he.symm)]
        exact i2.out b hb'
      · intro f hf
        simp only
        refine ⟨by rw [o.1]; exact (i3 f hf).1, ?_⟩
        by_cases h : f = t
        · subst h; exact sz
        · rw [o.2 _ (hne f hf h)]; exact (i3 f hf).2
      · intro f hf
        simp only
        by_cases h : f = t
        · subst h
          refine ⟨g1, fun c hc => ?_⟩
          rw [v c hc]
          unfold el
          rw [a1]
        · obtain ⟨b1, b2⟩ := i4 f (by omega)
          refine ⟨by rw [g2 _ (hne2 f (by omega) h), b1], fun c hc => ?_⟩
          rw [← b2 c hc]
          unfold el
          rw [o.2 _ (hne f (by omega) h)]
      · intro f hf hf'
        simp only
        rw [o.2 _ (hne f (by omega) (by omega)), g2 _ (hne2 f hf' (by omega))]
        exact i5 f (by omega) hf')
  refine ⟨s.1, s.2, ?_, i1, i2, i3, fun i hi => (i4 i hi).1, fun i hi => (i4 i hi).2⟩
  unfold decode_prepare
  rw [e, ok_bind]
  rfl

/-! ### the object -/

/-- an object for packets as the constructor builds it -/
structure Built (R : RsNf4Obj) (b lanes : Nat) (simd : Option (Nat × (Nat → Nat))) (k m : Nat)
    (S : Fin lanes → R.code.base.F.Sim (ZMod 65537)) (n len_2k : Nat) (g g2 : ZMod 65537) (okLen okB okB2 : Nat → Prop) : Prop where
  good : RsNf4.Good ⟨R.code.base, R.N⟩ b lanes simd k m S n len_2k g g2 okLen
  same : GF.SameCoef S
  ops : ∀ l, R.code.build.Ops (S l)
  fft : ∀ l, R.code.fft.Spec (S l) R.code.base.pkt_size n g okB
  fft2 : ∀ l, R.code.fft_2k.Spec (S l) R.code.base.pkt_size len_2k g2 okB2
  ok : okB k
  ok2 : okB2 k
  /-- for words with all the lanes that the vectorised functions act on -/
  wide : ∃ SW : Fin lanes → R.code.base.F.Sim (ZMod 65537), (∀ l a, (SW l).V a ↔ Packed (IsNf4.wide lanes simd) a) ∧
    (∀ l a, (SW l).φ a = (lane32 a l : ZMod 65537)) ∧ (∀ l, R.code.build.Ops (SW l)) ∧
    (∀ l, R.code.fft.Spec (SW l) R.code.base.pkt_size n g okB) ∧ (∀ l, R.code.fft_2k.Spec (SW l) R.code.base.pkt_size len_2k g2 okB2)

variable {b lanes k m n len_2k : Nat} {simd : Option (Nat × (Nat → Nat))} {S : Fin lanes → R.code.base.F.Sim (ZMod 65537)}
  {g g2 : ZMod 65537} {okLen okB okB2 : Nat → Prop}

theorem lanePoly_degree {a : Array Nat} (ha : a.size = k) (l : Nat) : (RsNf4.lanePoly a l).degree < k := by
  rw [degree_lt_iff_coeff_zero]
  intro j hj
  rw [RsNf4.lanePoly_coeff, if_neg (by omega)]

/-- `encode` on packets -/
theorem encode_spec (G : R.Built b lanes simd k m S n len_2k g g2 okLen okB okB2) {C : CtxB} {H : Heap} {wm om : Array Nat}
    {props : Array Properties} {off : Nat} (hws : wm.size = k) (hos : om.size = n) (hinj : InjPtr (wm ++ om))
    (hok : Okb R.code.base.pkt_size H (wm ++ om)) (hps : props.size = k + m)
    (hrow : ∀ c, c < R.code.base.pkt_size → IsRow R.code.base.word_size k (colOf H wm k c)) :
    ∃ H' props', R.encode C ⟨om, n, R.code.base.pkt_size⟩ props off ⟨wm, k, R.code.base.pkt_size⟩ H = .ok (C, H', props') ∧
      Okb R.code.base.pkt_size H' (wm ++ om) ∧ props'.size = k + m ∧ Only 0 (InMem (wm ++ om)) H H' ∧
      ∀ f, f < k + m → (∀ c, c < R.code.base.pkt_size → el H' (gt om f) c = RsNf4.stored R.N lanes g (colOf H wm k c) f) ∧
        gt props' f = ⟨(gt props f).props ++ (marksOf (fun c => RsNf4.markOf R.N lanes g (colOf H wm k c) f)
          R.code.base.pkt_size).map (fun x => (off + x.1, x.2))⟩ := by
  have gd := G.good
  have hkd : R.code.base.n_data = k := gd.n_data
  have hcl : R.code.base.code_len = k + m := gd.code_len
  have hle := gd.le
  have hpos := gd.H.build.pos
  obtain ⟨H1, e1, f1, o1, g1⟩ := mapChunks_spec (R := R) (f := R.N.pack) (count := k) (B := ⟨wm, k, R.code.base.pkt_size⟩) (H := H)
    le_rfl hws.ge hinj.left (hok.sub (SubPtr.left _ _))
  simp only at f1 o1 g1
  have hcol : ∀ i c, i < k → el H (gt wm i) c = gt (colOf H wm k c) i := fun i c hi => by
    unfold colOf; rw [gt_ofFn hi]
  have hp1 : ∀ i c, i < k → c < R.code.base.pkt_size → Packed lanes (el H1 (gt wm i) c) ∧
      ∀ l, l < lanes → lane32 (el H1 (gt wm i) c) l = lane16 (gt (colOf H wm k c) i) l := by
    intro i c hi hc
    rw [g1 i hi c hc, hcol i c hi]
    exact (RsNf4.pack_row gd ((hrow c hc).2 i hi)).2
  have oo1 : Okb R.code.base.pkt_size H1 om := (hok.sub (SubPtr.right _ _)).frame f1 hinj.disj
  have hfft : ∀ l, _ := fun l => (G.fft l).fft (H := H1) (mem := om) (inp := wm) hos (by rw [hws]; exact G.ok) hinj.right
    hinj.disj.symm oo1 o1 (fun j c hj hc => (gd.V l _).mpr (hp1 j c (by omega) hc).1)
  obtain ⟨H2, e2, f2, o2, _⟩ := hfft ⟨0, hpos⟩
  have hsym : ∀ f, f < n → ∀ c, c < R.code.base.pkt_size → el H2 (gt om f) c = RsNf4.sym lanes g (colOf H wm k c) f := by
    intro f hf c hc
    have key : ∀ l : Fin lanes, Packed lanes (el H2 (gt om f) c) ∧
        (lane32 (el H2 (gt om f) c) l : ZMod 65537) = (RsNf4.lanePoly (colOf H wm k c) l).eval (g ^ f) := by
      intro l
      obtain ⟨H2', e2', _, _, h'⟩ := hfft l
      rw [e2] at e2'; cases e2'
      obtain ⟨q1, q2⟩ := h' f hf c hc
      refine ⟨(gd.V l _).mp q1, ?_⟩
      rw [← gd.φ, q2, hws]
      refine RsFnt.sum_eval (k := k) (lanePoly_degree (by simp [colOf]) l) ?_ _
      intro j hj
      rw [gd.φ, (hp1 j c hj hc).2 l l.2, RsNf4.lanePoly_coeff, if_pos (by simpa [colOf] using hj)]
    refine RsNf4.packed_eq (key ⟨0, hpos⟩).1 (RsNf4.sym_packed _ _ _ _).1 (fun l hl => ?_)
    rw [(key ⟨l, hl⟩).2, (RsNf4.sym_packed lanes g (colOf H wm k c) f).2 l hl]
  obtain ⟨p', H3, e3, f3, o3, s3, g3⟩ := encode_post_process_spec (R := R) (output := ⟨om, n, R.code.base.pkt_size⟩) (props := props)
    (off := off) (H := H2) (by rw [hcl]; exact hle) (by rw [hcl]; show k + m ≤ om.size; omega) (by omega) hinj.right o2
  simp only at f3 o3 g3
  rw [hcl] at g3
  refine ⟨H3, p', ?_, ?_, by omega, ?_, fun f hf => ⟨fun c hc => ?_, ?_⟩⟩
  · unfold encode
    rw [hkd, e1, ok_bind, e2, ok_bind, e3, ok_bind]
    rfl
  · exact ((o1.frame f2 hinj.disj.symm).frame f3 hinj.disj.symm).append o3
  · have hr : ∀ i, i < om.size → InMem (wm ++ om) (gt om i) := fun i hi => ⟨wm.size + i, by rw [Array.size_append]; omega, by
      rw [gt_append, if_neg (by omega)]; simp⟩
    exact ((Only.of_frame f1 (fun i hi _ => ⟨i, by rw [Array.size_append]; omega, by rw [gt_append, if_pos hi]⟩)).trans
      (Only.of_frame f2 (fun i hi _ => hr i hi))).trans (Only.of_frame f3 (fun i hi _ => hr i hi))
  · rw [(g3 f hf).1 c hc, hsym f (by omega) c hc]; rfl
  · have hm : marksOf (fun c => flagOf R.N (el H2 (gt om f) c)) R.code.base.pkt_size
        = marksOf (fun c => RsNf4.markOf R.N lanes g (colOf H wm k c) f) R.code.base.pkt_size :=
      marksOf_congr (fun c hc => by rw [hsym f (by omega) c hc]; rfl)
    rw [(g3 f hf).2, hm]

/-- `decode` on packets -/
theorem decode_spec (G : R.Built b lanes simd k m S n len_2k g g2 okLen okB okB2) {C : CtxB} {H : Heap} {z : Nat} {ids wm om : Array Nat}
    {props : Array Properties} {off T : Nat} {rows : Nat → Array Nat}
    (hC : C.Shape k n len_2k R.code.base.pkt_size ids ⟨om, k, R.code.base.pkt_size⟩ z) (hM : C.Mem R.code.base.pkt_size z H)
    (hv : ∀ l, C.Vec (S l) k len_2k g g2 ids) (hids : ValidIds k (k + m) ids)
    (hws : wm.size = k) (hwi : InjPtr wm) (hwd : Disj wm C.ptrs)
    (hwz : ∀ i, i < wm.size → gt wm i ≠ z) (hwo : Okb R.code.base.pkt_size H wm)
    (hrows : ∀ t, t < T → IsRow R.code.base.word_size k (rows t))
    (hps : props.size = k + m) (hpi : C.props_indices.size = k + m)
    (hpr : ∀ i, i < k →
      (gt props (gt ids i)).props = marksOf (fun t => RsNf4.markOf R.N lanes g (rows t) (gt ids i)) T ∧
      gt C.props_indices (gt ids i) = (marksOf (fun t => RsNf4.markOf R.N lanes g (rows t) (gt ids i)) off).length)
    (hT : off + R.code.base.pkt_size ≤ T)
    (hw : ∀ i c, i < k → c < R.code.base.pkt_size → el H (gt wm i) c = RsNf4.stored R.N lanes g (rows (off + c)) (gt ids i)) :
    ∃ pi H', R.decode C ⟨om, k, R.code.base.pkt_size⟩ props off ⟨wm, k, R.code.base.pkt_size⟩ H
        = .ok ({ C with props_indices := pi }, H') ∧ pi.size = k + m ∧
      (∀ i, i < k → gt pi (gt ids i)
        = (marksOf (fun t => RsNf4.markOf R.N lanes g (rows t) (gt ids i)) (off + R.code.base.pkt_size)).length) ∧
      C.Mem R.code.base.pkt_size z H' ∧ Okb R.code.base.pkt_size H' wm ∧
      Only 0 (fun b => InMem C.ptrs b ∨ InMem wm b) H H' ∧
      ∀ i c, i < k → c < R.code.base.pkt_size → el H' (gt om i) c = gt (rows (off + c)) i := by
  have gd := G.good
  have hkd : R.code.base.n_data = k := gd.n_data
  have hle := gd.le
  have hpos := gd.H.build.pos
  have hk := gd.env.kpos
  have hkn := gd.env.kn
  have hltn : ∀ i, i < k → gt ids i < n := fun i hi => by have := hids.lt i hi; omega
  -- prepare
  obtain ⟨pi, H1, e1, s1, f1, o1, q1, w1⟩ := decode_prepare_spec (R := R) (C := C) (props := props) (off := off) (T := T)
    (N := k + m) (words := ⟨wm, k, R.code.base.pkt_size⟩) (H := H)
    (mk := fun f t => RsNf4.markOf R.N lanes g (rows t) f) (by rw [hkd, hC.idsEq]; exact hids) hps hpi
    (by rw [hkd, hC.idsEq]; exact hpr) hT hkd.symm (by rw [hkd]; exact hws) hwi hwo
  rw [hkd, hC.idsEq] at q1 w1
  simp only at f1 o1 w1
  have hsym : ∀ i, i < k → ∀ c, c < R.code.base.pkt_size → el H1 (gt wm i) c = RsNf4.sym lanes g (rows (off + c)) (gt ids i) := by
    intro i hi c hc
    rw [w1 i hi c hc, hw i c hi hc]
    obtain ⟨p1, p2, p3⟩ := Props.C16_pack_unpack gd.H (RsNf4.sym_packed lanes g (rows (off + c)) (gt ids i)).1
    simp only at p1 p2 p3
    by_cases hm : (R.N.unpack (RsNf4.sym lanes g (rows (off + c)) (gt ids i))).2 > 0
    · have hmk : RsNf4.markOf R.N lanes g (rows (off + c)) (gt ids i)
          = some (R.N.unpack (RsNf4.sym lanes g (rows (off + c)) (gt ids i))).2 := by unfold RsNf4.markOf; rw [if_pos hm]
      rw [hmk]
      exact p3
    · have hmk : RsNf4.markOf R.N lanes g (rows (off + c)) (gt ids i) = none := by unfold RsNf4.markOf; rw [if_neg hm]
      have h0 : (R.N.unpack (RsNf4.sym lanes g (rows (off + c)) (gt ids i))).2 = 0 := by omega
      rw [hmk]
      show R.N.pack (R.N.unpack (RsNf4.sym lanes g (rows (off + c)) (gt ids i))).1 = _
      rw [h0] at p3
      refine Eq.trans ?_ p3
      rw [gd.H.pack_eq p1, gd.H.packFlag_eq p1 (by positivity)]
      exact word_congr (fun l _ => by simp)
  have hM1 : C.Mem R.code.base.pkt_size z H1 := hM.frame f1 hwd hwz
  -- apply
  have hC' : ({ C with props_indices := pi } : CtxB).Shape k n len_2k R.code.base.pkt_size ids ⟨om, k, R.code.base.pkt_size⟩ z :=
    ⟨hC.len, hC.idsEq, hC.pn, hC.psize, hC.plen, hC.bk, hC.bnlen, hC.bnat, hC.bnz, hC.mn, hC.m2, hC.b2n, hC.b22, hC.out, hC.injP,
      hC.injM, hC.dPM, hC.zP, hC.zM⟩
  have hap : ∀ l, _ := fun l => FecB.decode_apply_spec (B := R.code) (S := S l) false hk hkn gd.env.k2 (gd.env.fft l).root
    (gd.env.fft_2k l).root (gd.env.fft_2k l).nz (G.fft l) (G.fft2 l) G.ok2 (G.ops l) (C := { C with props_indices := pi }) (ids := ids)
    (output := ⟨om, k, R.code.base.pkt_size⟩) (words := ⟨wm, k, R.code.base.pkt_size⟩) (H := H1) (z := z) hC' ⟨hM1.okP, hM1.okM, hM1.zlt, hM1.zv⟩
    ⟨(hv l).invSize, (hv l).inv, (hv l).ASize, (hv l).A⟩ hltn
    (fun i hi j hj he => hids.inj i j (by simpa using hi) (by simpa using hj) he) (by simp) rfl rfl hws hwd o1
    (fun i c hi hc => (gd.V l _).mpr (by rw [hsym i hi c hc]; exact (RsNf4.sym_packed _ _ _ _).1))
  obtain ⟨H2, e2, f2, m2, _⟩ := hap ⟨0, hpos⟩
  change Frame C.ptrs H1 H2 at f2
  have hM2 : C.Mem R.code.base.pkt_size z H2 := ⟨m2.okP, m2.okM, m2.zlt, m2.zv⟩
  have hwo2 : Okb R.code.base.pkt_size H2 wm := o1.frame f2 hwd.symm
  have hom : om = C.buf_max_n_2k.mem.extract 0 k := by have := hC.out; simpa using congrArg Bufs.mem this
  have homS : SubPtr om C.ptrs := by
    rw [hom]
    exact (SubPtr.extract (by have := hC.mn; omega)).trans (SubPtr.right _ _)
  have homs : om.size = k := by rw [hom]; simp; have := hC.mn; omega
  have homi : InjPtr om := by rw [hom]; exact hC.injM.extract (by have := hC.mn; omega)
  have homo : Okb R.code.base.pkt_size H2 om := by
    rw [hom]; exact hM2.okM.sub (SubPtr.extract (by have := hC.mn; omega))
  have hval : ∀ i c, i < k → c < R.code.base.pkt_size → el H2 (gt om i) c = R.N.pack (gt (rows (off + c)) i) := by
    intro i c hi hc
    have hr := hrows (off + c) (by omega)
    have hv' := RsNf4.pack_row gd (hr.2 i hi)
    have key : ∀ l : Fin lanes, Packed lanes (el H2 (gt om i) c) ∧
        (lane32 (el H2 (gt om i) c) l : ZMod 65537) = (RsNf4.lanePoly (rows (off + c)) l).coeff i := by
      intro l
      obtain ⟨H2', e2', _, _, v2, c2⟩ := hap l
      rw [e2] at e2'
      obtain ⟨_, rfl⟩ := Prod.mk.inj (Except.ok.inj e2')
      refine ⟨(gd.V l _).mp (v2 i c hi hc), ?_⟩
      rw [← gd.φ]
      exact c2 c hc _ (lanePoly_degree hr.1 l) (fun i hi => by
        show (S l).φ (el H1 (gt wm i) c) = _
        rw [hsym i hi c hc, gd.φ, (RsNf4.sym_packed _ _ _ _).2 l l.2]) i hi
    refine RsNf4.packed_eq (key ⟨0, hpos⟩).1 hv'.2.1 (fun l hl => ?_)
    rw [(key ⟨l, hl⟩).2, hv'.2.2 l hl, RsNf4.lanePoly_coeff, if_pos (by rw [hr.1]; exact hi)]
  -- unpack
  obtain ⟨H3, e3, f3, o3, g3⟩ := mapChunks_spec (R := R) (f := fun x => (R.N.unpack x).1) (count := k) (B := ⟨om, k, R.code.base.pkt_size⟩)
    (H := H2) le_rfl homs.ge homi homo
  simp only at f3 o3 g3
  refine ⟨pi, H3, ?_, s1, q1, ?_, hwo2.frame f3 (hwd.symm.sub homS (SubPtr.refl _)),
    ((Only.of_frame f1 (fun i hi _ => Or.inr ⟨i, hi, rfl⟩)).trans (Only.of_frame f2 (fun i hi _ => Or.inl ⟨i, hi, rfl⟩))).trans
      (Only.of_frame (f3.mono homS) (fun i hi _ => Or.inl ⟨i, hi, rfl⟩)), ?_⟩
  · unfold decode decode_apply
    rw [e1, ok_bind]
    simp only
    rw [e2, ok_bind]
    simp only
    rw [hkd, e3, ok_bind]
    rfl
  · refine ⟨hM2.okP.frame f3 ?_, ?_, by rw [f3.size]; exact hM2.zlt, ?_⟩
    · rw [hom]; exact (hC.dPM.symm.sub (SubPtr.extract (by have := hC.mn; omega)) (SubPtr.refl _))
    · intro i hi
      rw [f3.size]
      refine ⟨(hM2.okM i hi).1, ?_⟩
      by_cases hik : i < k
      · have := (o3 i (by omega)).2
        rw [hom, gt_extract (by omega) (by have := hC.mn; omega)] at this
        simpa using this
      · rw [f3.out _ (fun j hj he => ?_)]
        · exact (hM2.okM i hi).2
        · rw [hom, gt_extract (by omega) (by have := hC.mn; omega)] at he
          have := hC.injM (0 + j) i (by have := hC.mn; omega) hi he
          omega
    · rw [f3.out z (fun j hj he => ?_)]
      · exact hM2.zv
      · rw [hom, gt_extract (by omega) (by have := hC.mn; omega)] at he
        exact hC.zM (0 + j) (by have := hC.mn; omega) he
  · intro i c hi hc
    rw [g3 i hi c hc, hval i c hi hc]
    exact congrArg Prod.fst (Props.C16_unpack_pack gd.H (RsNf4.pack_row gd ((hrows (off + c) (by omega)).2 i hi)).1).2

theorem sym_zero (lanes : Nat) (g : ZMod 65537) (k f : Nat) : RsNf4.sym lanes g (Array.replicate k 0) f = 0 := by
  refine RsNf4.packed_eq (RsNf4.sym_packed _ _ _ _).1 (packed0 lanes) (fun l hl => ?_)
  rw [(RsNf4.sym_packed lanes g (Array.replicate k 0) f).2 l hl]
  have : RsNf4.lanePoly (Array.replicate k 0) l = 0 := by
    ext i
    rw [RsNf4.lanePoly_coeff]
    split
    · rw [gt_replicate (by simpa using ‹i < (Array.replicate k 0).size›)]; simp [lane16]
    · simp
  rw [this]; simp [lane32]

/-- the packed code on packets -/
theorem vspec (G : R.Built b lanes simd k m S n len_2k g g2 okLen okB okB2) :
    (R.fecV b).VSpec (RsNf4.stored R.N lanes g) (RsNf4.markOf R.N lanes g) 0 (fun _ _ => True) := by
  have gd := G.good
  have hkd : R.code.base.n_data = k := gd.n_data
  have hcl : R.code.base.code_len = k + m := gd.code_len
  have hno : R.code.base.n_outputs = k + m := gd.n_outputs
  have hsys : R.code.base.sys = false := gd.sys
  have hnn : R.code.base.n = n := gd.hn
  have hle := gd.le
  have hpos := gd.H.build.pos
  have hk := gd.env.kpos
  have hkn := gd.env.kn
  have hn16 := gd.n16
  haveI : Nonempty (Fin lanes) := ⟨⟨0, hpos⟩⟩
  have hpow : 256 ^ R.code.base.word_size = 2 ^ (16 * lanes) := by
    have : R.code.base.word_size = 2 * lanes := gd.wl
    rw [this, show (256 : Nat) = 2 ^ 8 by norm_num, ← pow_mul]; congr 1; ring
  have hlt : ∀ (a : Array Nat) (f : Nat), RsNf4.stored R.N lanes g a f < 256 ^ R.code.base.word_size := fun a f => by
    rw [hpow]; exact (Props.C16_pack_unpack gd.H (RsNf4.sym_packed lanes g a f).1).1
  have hz : R.N.unpack 0 = (0, 0) := by
    have h1 := Props.C16_unpack_pack gd.H (v := 0) (by positivity)
    have h2 : R.N.pack 0 = 0 := by
      show (RsNf4.Code.mk R.code.base R.N).N.pack 0 = 0
      rw [gd.H.pack_eq (by positivity)]
      refine RsNf4.packed_eq (word_packed (fun l _ => by simp [lane16])).1 (packed0 lanes) (fun l hl => ?_)
      rw [(word_packed (n := lanes) (f := fun l => lane16 0 l) (fun l _ => by simp [lane16])).2 l hl]
      simp [lane16, lane32]
    have h3 := h1.2
    simp only at h3
    rwa [h2] at h3
  refine ⟨gd.hw, ?_, by show 0 < R.code.base.n_data; omega, ?_, ?_, ?_, fun _ _ => hlt _ _, ?_, ?_, fun _ => Nat.zero_le _, fun _ _ _ => trivial, ?_, ?_⟩
  · show 8 * R.code.base.word_size ≤ b
    have : R.code.base.word_size = 2 * lanes := gd.wl
    have := gd.H.build.fit
    omega
  · show R.code.base.code_len = R.code.base.n_data + R.code.base.n_parities
    have : R.code.base.n_parities = m := gd.n_parities
    omega
  · show R.code.base.n_outputs = if R.code.base.sys then R.code.base.n_parities else R.code.base.code_len
    rw [hsys, hno, hcl]; rfl
  · show R.code.base.n_outputs ≤ R.code.base.n
    omega
  · intro f _
    show RsNf4.markOf R.N lanes g (Array.replicate R.code.base.n_data 0) f = none
    unfold RsNf4.markOf
    rw [sym_zero, hz]; rfl
  · intro f _
    show RsNf4.stored R.N lanes g (Array.replicate R.code.base.n_data 0) f = 0
    unfold RsNf4.stored
    rw [sym_zero, hz]
  · intro C H wm om props off _ h1 h2 h3 h4 h5 h6 h7
    change wm.size = R.code.base.n_data at h1
    change om.size = R.code.base.n at h2
    change props.size = R.code.base.n_outputs at h6
    change ∀ c, c < R.code.base.pkt_size → IsRow R.code.base.word_size R.code.base.n_data (colOf H wm R.code.base.n_data c) at h7
    rw [hkd] at h1 h7
    obtain ⟨H', props', ee, o', s', u', hh⟩ := encode_spec G (C := C) (wm := wm) (om := om) (props := props) (off := off) h1 (by omega) h3 h5
      (by omega) h7
    refine ⟨C, H', props', ?_, trivial, o', by show props'.size = R.code.base.n_outputs; omega, rfl, u', fun f hf => ?_⟩
    · show R.encode C ⟨om, R.code.base.n, R.code.base.pkt_size⟩ props off ⟨wm, R.code.base.n_data, R.code.base.pkt_size⟩ H = _
      rw [hkd, hnn]; exact ee
    · change f < R.code.base.n_outputs at hf
      obtain ⟨q1, q2⟩ := hh f (by omega)
      show (∀ c, c < R.code.base.pkt_size → el H' (gt om f) c % 256 ^ R.code.base.word_size
        = RsNf4.stored R.N lanes g (colOf H wm R.code.base.n_data c) f) ∧ gt props' f = ⟨_ ++
          (marksOf (fun c => RsNf4.markOf R.N lanes g (colOf H wm R.code.base.n_data c) f) R.code.base.pkt_size).map _⟩
      rw [hkd]
      refine ⟨fun c hc => ?_, q2⟩
      rw [q1 c hc]
      exact Nat.mod_eq_of_lt (hlt _ _)
  · intro C0 H rows T ids props wm om mem junk _ hrows hids hps hprops h1 h2 h3 h4 h5
    change ∀ t, t < T → IsRow R.code.base.word_size R.code.base.n_data (rows t) at hrows
    change ValidIds R.code.base.n_data (if R.code.base.sys then R.code.base.n_data + R.code.base.n_outputs else R.code.base.n_outputs) ids at hids
    change props.size = R.code.base.n_outputs at hps
    change ∀ i f, i < R.code.base.n_data → f < R.code.base.n_outputs →
      gt ids i = (if R.code.base.sys then R.code.base.n_data + f else f) → _ at hprops
    change wm.size = R.code.base.n_data at h1
    change om.size = R.code.base.n_data at h2
    rw [hsys, if_neg (by simp), hno, hkd] at hids
    rw [hsys, hno, hkd] at hprops
    rw [hkd] at hrows h1 h2
    have hidsn : ValidIds k n ids := ⟨hids.size, hids.inj, fun i hi => by have := hids.lt i hi; omega⟩
    have hpr : ∀ i, i < k → gt props (gt ids i) = ⟨marksOf (fun t => RsNf4.markOf R.N lanes g (rows t) (gt ids i)) T⟩ := fun i hi =>
      hprops i (gt ids i) hi (hids.lt i hi) rfl
    -- the points
    obtain ⟨vx, evx, svx, hvx⟩ := forN_inv (n := k) (s := fresh mem k) (f := fun i vx => do
        let j ← rd ids i
        wr vx i (R.N.exp R.code.base.r (R.N.replicate j)))
      (I := fun t (vx : Array Nat) => vx.size = k ∧ ∀ i, i < t → gt vx i = R.N.exp R.code.base.r (R.N.replicate (gt ids i)))
      ⟨by simp [fresh], by simp⟩ (by
        rintro t vx ht ⟨i1, i2⟩
        have := hids.size
        refine ⟨_, by rw [rd_gt (a := ids) (by omega), ok_bind, wr_ok (by omega)], by simp [i1], fun i hi => ?_⟩
        rw [gt_set (by omega)]
        by_cases he : i = t
        · subst he; rw [if_pos rfl]
        · rw [if_neg he]; exact i2 i (by omega))
    have hvx' : ∀ (l : Fin lanes) i, i < k → (S l).V (gt vx i) ∧ (S l).φ (gt vx i) = g ^ gt ids i := by
      intro l i hi
      have hlt := hidsn.lt i hi
      have he := Props.C15_exp gd.H ((gd.V l _).mp (gd.r l).1) (R.N.replicate (gt ids i))
      simp only at he
      rw [hvx i hi, gd.V, gd.φ]
      refine ⟨he.1, ?_⟩
      have hrep := gd.H.replicate_lane (a := gt ids i) (by omega) l.2
      simp only at hrep
      rw [he.2 l l.2, hrep, ← gd.φ, (gd.r l).2]
    obtain ⟨H', C, z, eC, ext, hC, hM, hv, hpi, hz', hpt⟩ := CtxB.mk'_spec gd.env G.same (ids := ids) (vx := vx) (props := props)
      mem junk hidsn svx hvx' (pkt := R.code.base.pkt_size) (output := ⟨om, k, R.code.base.pkt_size⟩) (H := H) rfl rfl h2 h3.right
      (h5.sub (SubPtr.right _ _))
    have hwlt : ∀ j, j < wm.size → gt wm j < H.size := fun j hj => by
      have := (h5 j (by rw [Array.size_append]; omega)).1
      rwa [gt_append, if_pos hj] at this
    have hwd : Disj wm C.ptrs := fun i j hi hj he => by
      rcases hpt j hj with ⟨t, ht, ht'⟩ | ⟨hh, _⟩
      · rw [ht'] at he
        exact h3.disj i t hi (by omega) he
      · have := hwlt i hi; omega
    have hwz : ∀ i, i < wm.size → gt wm i ≠ z := fun i hi he => by have := hwlt i hi; omega
    refine ⟨fun C' Hh t => ∃ pi, C' = { C with props_indices := pi } ∧ pi.size = k + m ∧
      (∀ i, i < k → gt pi (gt ids i) = (marksOf (fun t => RsNf4.markOf R.N lanes g (rows t) (gt ids i)) t).length) ∧
      C.Mem R.code.base.pkt_size z Hh ∧ Okb R.code.base.pkt_size Hh wm, fun b => InMem C.ptrs b ∨ b = z,
      H', C, props.map Properties.sort, ?_, ?_, ext, ?_, ?_, ?_, ?_, ?_, ?_⟩
    · show R.init_context_dec ids props R.code.base.pkt_size ⟨om, R.code.base.n_data, R.code.base.pkt_size⟩ mem junk H = _
      unfold init_context_dec
      rw [hkd, evx, ok_bind, hnn]
      exact eC
    · refine ⟨C.props_indices, rfl, by rw [hpi]; simp; omega, ?_, hM, (h5.sub (SubPtr.left _ _)).ext ext⟩
      intro i hi
      rw [hpi, gt_replicate (by have := hids.lt i hi; omega)]
      rfl
    · rintro b (⟨i, hi, rfl⟩ | rfl)
      · refine ⟨Nat.zero_le _, (hM.ptrs_lt i hi), fun hb => ?_⟩
        rcases hpt i hi with ⟨j, hj, he⟩ | ⟨hh, _⟩
        · exact ⟨j, by omega, he.symm⟩
        · omega
      · exact ⟨by omega, hM.zlt, fun hb => by omega⟩
    · rintro b ⟨i, hi, rfl⟩
      have hom : om = C.buf_max_n_2k.mem.extract 0 k := by have := hC.out; simpa using congrArg Bufs.mem this
      have homS : SubPtr om C.ptrs := by
        rw [hom]
        exact (SubPtr.extract (by have := hC.mn; omega)).trans (SubPtr.right _ _)
      obtain ⟨j, hj, he⟩ := homS i hi
      exact Or.inl ⟨j, hj, he.symm⟩
    · rintro C' Ha Hb t ⟨pi, rfl, a1, a2, a3, a5⟩ hs _ ho hw
      exact ⟨pi, rfl, a1, a2, a3.stable hs (fun i hi => ho _ (Or.inl ⟨i, hi, rfl⟩)) (ho _ (Or.inr rfl)), hw⟩
    · rintro C' Hh t ⟨pi, rfl, _, _, a3, a5⟩
      refine ⟨trivial, a5, ?_⟩
      have hom : om = C.buf_max_n_2k.mem.extract 0 k := by have := hC.out; simpa using congrArg Bufs.mem this
      rw [hom]
      exact a3.okM.sub (SubPtr.extract (by have := hC.mn; omega))
    · rintro C' Ha Hb t ⟨pi, rfl, a1, a2, a3, a5⟩ hf ho
      exact ⟨pi, rfl, a1, a2, a3.frame hf hwd hwz, ho⟩
    · rintro C' Hh t ht ⟨pi, rfl, a1, a2, a3, a5⟩ hwords
      change t + R.code.base.pkt_size ≤ T at ht
      change ∀ i c, i < R.code.base.n_data → c < R.code.base.pkt_size →
          el Hh (gt wm i) c = fragVal R.code.base.sys R.code.base.n_data _ (rows (t + c)) (gt ids i) at hwords
      rw [hkd, hsys] at hwords
      have hC' : ({ C with props_indices := pi } : CtxB).Shape k n len_2k R.code.base.pkt_size ids ⟨om, k, R.code.base.pkt_size⟩ z :=
        ⟨hC.len, hC.idsEq, hC.pn, hC.psize, hC.plen, hC.bk, hC.bnlen, hC.bnat, hC.bnz, hC.mn, hC.m2, hC.b2n, hC.b22, hC.out, hC.injP,
          hC.injM, hC.dPM, hC.zP, hC.zM⟩
      obtain ⟨pi', Hn, en, b1, b2, b3, b5, b7, b6⟩ := decode_spec G (C := { C with props_indices := pi }) (z := z) (ids := ids)
        (wm := wm) (om := om) (props := props.map Properties.sort) (off := t) (T := T) (rows := rows) hC'
        ⟨a3.okP, a3.okM, a3.zlt, a3.zv⟩ (fun l => ⟨(hv l).invSize, (hv l).inv, (hv l).ASize, (hv l).A⟩) hids h1 h3.left hwd hwz
        a5 hrows (by simp; omega) a1 (fun i hi => by
          refine ⟨?_, a2 i hi⟩
          rw [gt_map (by have := hids.lt i hi; omega), hpr i hi, sort_marksOf]) ht (fun i c hi hc => by
          rw [hwords i c hi hc]; rfl)
      refine ⟨{ C with props_indices := pi' }, Hn, ?_, ⟨pi', rfl, b1, b2, ⟨b3.okP, b3.okM, b3.zlt, b3.zv⟩, b5⟩,
        ⟨b7.1, fun b hb hn => b7.2 b hb (fun h => hn (h.imp_left Or.inl))⟩, ?_⟩
      · show R.decode _ ⟨om, R.code.base.n_data, R.code.base.pkt_size⟩ _ t ⟨wm, R.code.base.n_data, R.code.base.pkt_size⟩ Hh = _
        rw [hkd]; exact en
      · intro i c hi hc
        change i < R.code.base.n_data at hi
        exact b6 i c (by omega) hc

/-- what is stored of fragment `f`, with one symbol for each of `lanes` lanes -/
noncomputable def cstored (lanes : Nat) (g : ZMod 65537) (a : Array Nat) (f : Nat) : Nat :=
  word 16 lanes (fun l => if lane32 (RsNf4.sym lanes g a f) l = 65536 then 0 else lane32 (RsNf4.sym lanes g a f) l)

/-- its mark -/
noncomputable def cmark (lanes : Nat) (g : ZMod 65537) (a : Array Nat) (f : Nat) : Option Nat :=
  if IsNf4.flagOf lanes (RsNf4.sym lanes g a f) > 0 then some (IsNf4.flagOf lanes (RsNf4.sym lanes g a f)) else none

theorem stored_eq {N : NF4} (H : IsNf4 N b lanes simd) (g : ZMod 65537) : RsNf4.stored N lanes g = cstored lanes g := by
  funext a f
  unfold RsNf4.stored cstored
  rw [H.unpack_eq (RsNf4.sym_packed lanes g a f).1]

theorem markOf_eq {N : NF4} (H : IsNf4 N b lanes simd) (g : ZMod 65537) : RsNf4.markOf N lanes g = cmark lanes g := by
  funext a f
  unfold RsNf4.markOf cmark
  rw [H.unpack_eq (RsNf4.sym_packed lanes g a f).1]

/-- the field under the lanes is the same for every object -/
theorem sub_field_eq : ∃ F0 : RingModN.Obj, RingModN.IsPrimeField F0 65537 ∧
    ∀ {N : NF4} {b n : Nat} {simd : Option (Nat × (Nat → Nat))}, IsNf4 N b n simd → N.sub_field = F0 := by
  have hB : Nf4Build 32 1 none := ⟨by norm_num, by norm_num, by norm_num, by simp⟩
  obtain ⟨N0, e0, H0⟩ := Props.C15_constructor hB
  refine ⟨N0.sub_field, H0.sub_field, fun {N b n simd} H => ?_⟩
  have h1 := H.built
  unfold NF4.mk' at h1 e0
  obtain ⟨F, eF, h2⟩ := bind_ok h1
  rw [eF, ok_bind] at e0
  obtain ⟨_, _, h3⟩ := bind_ok h2
  obtain ⟨_, _, h4⟩ := bind_ok e0
  rw [← Except.ok.inj h3, ← Except.ok.inj h4]

theorem nthRoot' {N : NF4} {O : NF4.Obj} (H : IsNf4 N b lanes simd) (hO : N.init = .ok O) {L w : Nat} (hL : L ≤ 16)
    (e : N.sub_field.get_nth_root (2 ^ L) = .ok w) (h1 : w < 65537) :
    O.gf.nthRoot (2 ^ L) = .ok (O.gf.replicate w) ∧
      ∀ l, (H.sim hO l).V (O.gf.replicate w) ∧ (H.sim hO l).φ (O.gf.replicate w) = (w : ZMod 65537) := by
  have hN := (H.init_factors hO).1
  have hw : wrap 32 (2 ^ L) = 2 ^ L := Nat.mod_eq_of_lt (Nat.pow_lt_pow_right (by norm_num) (by omega))
  refine ⟨?_, fun l => H.rep hO l h1⟩
  show O.N.get_nth_root (2 ^ L) = .ok (O.N.replicate w)
  unfold NF4.get_nth_root
  rw [hN, hw, e, ok_bind]
  rfl

/-- The constructor, with one root of unity for all word types, builds, word sizes and packet sizes. -/
theorem mk'_spec {k m : Nat} (hk : 0 < k) (hm : 0 < m) (hlen : k + m ≤ 65536) :
    ∃ (N0 : Nat) (g : ZMod 65537), IsPrimitiveRoot g N0 ∧ k + m ≤ N0 ∧ ∀ {b w pkt : Nat} {reg : Option Nat} {hi : Nat → Nat}, Nf4Reg reg → Nf4Params b (nf4Simd b reg hi) w k m →
    ∀ mem : Nat → Nat, ∃ R, mk' b reg hi w k m pkt mem = .ok R ∧
      RsNf4.mkCode b (nf4Simd b reg hi) w k m pkt mem = .ok ⟨R.code.base, R.N⟩ ∧ R.code.base.word_size = w ∧ R.code.base.pkt_size = pkt ∧
      ∃ (S : Fin (w / 2) → R.code.base.F.Sim (ZMod 65537)) (n len_2k : Nat) (g2 : ZMod 65537) (okLen okB okB2 : Nat → Prop),
        R.Built b (w / 2) (nf4Simd b reg hi) k m S n len_2k g g2 okLen okB okB2 := by
  obtain ⟨F0, hF0, hsub⟩ := sub_field_eq
  obtain ⟨L, eL, hL, hL', _⟩ := hF0.codeLen (e := 16) (by norm_num) (m := m + k) (by omega) (by norm_num; omega)
  obtain ⟨g, eg, hg1, hg2⟩ := hF0.get_nth_root_spec (2 ^ L)
  rw [Nat.gcd_eq_left (show 2 ^ L ∣ 65537 - 1 from pow_dvd_pow 2 hL)] at hg2
  refine ⟨2 ^ L, (g : ZMod 65537), hg2, by omega, fun {b w pkt reg hi} hreg h mem => ?_⟩
  obtain ⟨hw, hB, _, _, _, htwo⟩ := h
  obtain ⟨N, eN, H⟩ := Props.C15_constructor hB
  obtain ⟨O, hO, hON, _⟩ := H.init_spec
  have hs := hsub H
  obtain ⟨er, hr⟩ := nthRoot' H hO hL (by rw [hs]; exact eg) hg1
  obtain ⟨L2, eL2, hL2, hL2'⟩ := H.codeLen hO (m := 2 * k) (by omega) (by norm_num; omega)
  obtain ⟨r2, g2, er2, hg2', hr2⟩ := H.nthRoot hO hL2
  obtain ⟨d, ed, hd1, hd2⟩ := Arith.ceil2_spec (b := 32) (n := k) hk (by norm_num; omega)
  have hdL : 2 ^ d ≤ 2 ^ L := hd2 L (by omega)
  have hdL' : d ≤ L := (Nat.pow_le_pow_iff_right (by omega)).mp hdL
  obtain ⟨R, eR, hR⟩ := H.ftSpec hO (pkt := pkt) hL (by positivity) hdL er hg2 hr
  obtain ⟨R2, eR2, hR2⟩ := H.ftSpec hO (pkt := pkt) (dl := 2 ^ L2) hL2 (by positivity) le_rfl er2 hg2' hr2
  obtain ⟨ir, eir, _⟩ := (H.sim hO ⟨0, hB.pos⟩).inv (a := O.gf.replicate g) (hr _).1 trivial
  obtain ⟨P1, eP1⟩ := RsNf4.powers_ok O.gf ir (k + 1) mem
  obtain ⟨P2, eP2⟩ := RsNf4.powers_ok O.gf (O.gf.replicate g) (2 ^ L) mem
  have eC : RsNf4.mkCode b (nf4Simd b reg hi) w k m pkt mem = .ok
      ⟨{      sys := false, word_size := w, n_data := k, n_parities := m,
              code_len := k + m, n_outputs := k + m,
              pkt_size := pkt, n := 2 ^ L, r := O.gf.replicate g, F := O.gf, fft := R.ft pkt, fft_2k := R2.ft pkt,
              inv_r_powers := P1, r_powers := P2 }, N⟩ := by
    unfold RsNf4.mkCode
    have h1 : w ≥ 2 := by omega
    have h2 : w ≤ 8 := by omega
    simp only [cassert, h1, h2, decide_true, if_true, ok_bind]
    rw [eN, ok_bind, hO, ok_bind, hs, eL, ok_bind, er, ok_bind, ed, ok_bind, eR, ok_bind, eL2, ok_bind, eR2, ok_bind, eir, ok_bind,
      eP1, ok_bind, eP2, ok_bind]
    rfl
  refine ⟨⟨⟨{ sys := false, word_size := w, n_data := k, n_parities := m,
              code_len := k + m, n_outputs := k + m,
              pkt_size := pkt, n := 2 ^ L, r := O.gf.replicate g, F := O.gf, fft := R.ft pkt, fft_2k := R2.ft pkt,
              inv_r_powers := P1, r_powers := P2 }, Build.of reg b, (Build.of reg b).fth R pkt, (Build.of reg b).fth R2 pkt, default⟩, N⟩,
      ?_, eC, rfl, rfl, H.sim hO, 2 ^ L, 2 ^ L2, (g2 : ZMod 65537), (fun m => ∃ d', d' ≤ L ∧ (if m > 2 ^ d then m else 2 ^ d) = 2 ^ d'),
      (fun m => 0 < m ∧ ∃ d', d' ≤ L ∧ (if m > 2 ^ d then m else 2 ^ d) = 2 ^ d'),
      (fun m => 0 < m ∧ ∃ d', d' ≤ L2 ∧ (if m > 2 ^ L2 then m else 2 ^ L2) = 2 ^ d'), ?_⟩
  · unfold mk'
    rw [eC, ok_bind, ed, ok_bind]
    simp only
    rw [eR, ok_bind, eL2, ok_bind, eR2, ok_bind]
    rfl
  · refine ⟨?_, H.sameCoef hO, fun l => H.ops hO hreg l, fun l => H.fthSpec hO hL (by positivity) hdL er hg2 hr hreg eR l,
      fun l => H.fthSpec hO hL2 (by positivity) le_rfl er2 hg2' hr2 hreg eR2 l, ⟨hk, d, hdL', if_neg (by omega)⟩,
      ⟨hk, L2, le_rfl, if_neg (by omega)⟩, H.simW hO, fun l a => Iff.rfl, fun l a => rfl, fun l => H.opsW hO hreg l,
      fun l => H.fthSpecW hO hL (by positivity) hdL er hg2 hr hreg eR l, fun l => H.fthSpecW hO hL2 (by positivity) le_rfl er2 hg2' hr2 hreg eR2 l⟩
    refine ⟨H, fun l a => Iff.rfl, fun l a => rfl, rfl, ?_, ?_, rfl, rfl, rfl, rfl, rfl, by omega,
      Nat.pow_le_pow_right (by norm_num) hL, hr, ?_, ?_, by show O.N.mul = N.mul; rw [hON]⟩
    · show WordSize w
      unfold WordSize; omega
    · show w = 2 * (w / 2)
      omega
    · refine ⟨H.char hO, H.oneWord hO, fun _ _ _ => trivial, hk, by omega, hL2', ?_, eL2, hR, fun l => ?_⟩
      · exact ⟨L, le_rfl, by split <;> omega⟩
      · have hF2 := hR2 l
        refine ⟨hF2.n, hF2.pos, hF2.nz, hF2.root, ?_, hF2.fft_inv, hF2.ifft⟩
        intro out input h1 h2 h3
        exact hF2.fft h1 ⟨L2, le_rfl, by rw [h2]; simp⟩ h3
    · exact ⟨d, hdL', by rw [if_neg (by omega)]⟩

end RsNf4Obj
end Quad
