import Verif.Lemmas.SimdBuild
import Verif.Props.Buffers

/-!
# C12: the vectorised arithmetic and buffer kernels

`R` is the number of bytes of a register (16 or 32), `w` that of an element (2 or 4);
`Simd.lane w x i` is element `i` of register `x`.
-/

namespace Quad
open Simd RingModN

/-- the modulus that goes with an element size -/
theorem C12_modulus : P 2 = 257 ∧ P 4 = 65537 := by decide

/-- **C12** registers: for each element in the field, the five operations give the
result of the field; `mod_mul` does unless both operands are `p - 1`. -/
theorem C12_registers {R w : Nat} (hR : R = 16 ∨ R = 32) (hw : w = 2 ∨ w = 4) (x y : Reg) (i : Nat) (hi : i < R / w)
    (hx : lane w x i < P w) (hy : lane w y i < P w) :
    lane w (mod_add w x y) i = (lane w x i + lane w y i) % P w ∧
    (lane w (mod_sub w x y) i : ZMod (P w)) = (lane w x i : ZMod (P w)) - lane w y i ∧ lane w (mod_sub w x y) i < P w ∧
    (lane w (mod_neg w x) i : ZMod (P w)) = -(lane w x i : ZMod (P w)) ∧ lane w (mod_neg w x) i < P w ∧
    lane w (mod_mul_safe R w x y) i = lane w x i * lane w y i % P w ∧
    (¬ (lane w x i = P w - 1 ∧ lane w y i = P w - 1) → lane w (mod_mul w x y) i = lane w x i * lane w y i % P w) := by
  have hp := P_pos hw
  refine ⟨lane_mod_add hw hx hy, ?_, ?_, ?_, ?_, lane_mod_mul_safe hw ?_ hx hy, fun h => lane_mod_mul hw hx hy h⟩
  · rw [lane_mod_sub hw hx hy, ZMod.natCast_mod, Nat.cast_add, Nat.cast_sub hy.le, ZMod.natCast_self]; ring
  · rw [lane_mod_sub hw hx hy]; exact Nat.mod_lt _ hp
  · rw [lane_mod_neg hw hx, ZMod.natCast_mod, Nat.cast_sub hx.le, ZMod.natCast_self]; ring
  · rw [lane_mod_neg hw hx]; exact Nat.mod_lt _ hp
  · rw [← (ratio_mul hR hw).1]; exact Nat.mul_le_mul_right _ hi

example : lane 2 (mod_mul_safe 16 2 (set_one 2 256) (set_one 2 256)) 3 = 256 * 256 % P 2 :=
  (C12_registers (R := 16) (w := 2) (.inl rfl) (.inl rfl) (set_one 2 256) (set_one 2 256) 3 (by decide)
    (by rw [lane_set_one (.inl rfl) (by decide)]; decide) (by rw [lane_set_one (.inl rfl) (by decide)]; decide)).2.2.2.2.2.1.trans
    (by rw [lane_set_one (.inl rfl) (by decide)])

/-- the exception to `mod_mul` is real: `(p - 1) * (p - 1)` gives 0 instead of 1. -/
theorem C12_mod_mul_both_minus_one :
    lane 2 (mod_mul 2 (set_one 2 256) (set_one 2 256)) 0 = 0 ∧
    lane 4 (mod_mul 4 (set_one 4 65536) (set_one 4 65536)) 0 = 0 := by
  constructor <;> decide +kernel

/-- **C12** buffers: on buffers of any length whose entries are in the field, each
vectorised kernel does to memory what the scalar code does. -/
theorem C12_buffers {R w : Nat} (hR : R = 16 ∨ R = 32) (hw : w = 2 ∨ w = 4) {F : GF} (hF : F.ModP (P w)) {len : Nat}
    (H : Heap) (a x y : Nat) (ha : a < P w - 1) (hx : x < H.size ∧ (gt H x).size = len) (hy : y < H.size ∧ (gt H y).size = len)
    (hx' : ∀ c, c < len → gt (gt H x) c < P w) (hy' : ∀ c, c < len → gt (gt H y) c < P w) :
    mul_coef_to_buf R w F.card a x y len H = BufOps.mul_coef_to_buf F a x y len H ∧
    add_two_bufs R w F.card x y len H = BufOps.add_two_bufs F x y len H ∧
    mul_two_bufs R w F.card y x len H = BufOps.hadamard_mul F len x y H ∧
    neg R w F.card len x H = BufOps.negBuf F len x H ∧
    ∀ z, z < H.size → (gt H z).size = len → (∀ c, c < len → gt (gt H z) c < P w) →
      sub_two_bufs R w F.card x y z len H = BufOps.sub_two_bufs F x y z len H := by
  have hG : Good (P w) len (fun b => b = x ∨ b = y) H := by
    rintro b (rfl | rfl)
    exacts [⟨hx.1, hx.2, hx'⟩, ⟨hy.1, hy.2, hy'⟩]
  refine ⟨mul_coef_to_buf_eq hR hw hF (by omega) (by omega) (.inl rfl) (.inr rfl) hG, add_two_bufs_eq hR hw hF (.inl rfl) (.inr rfl) hG,
    mul_two_bufs_eq hR hw hF (.inr rfl) (.inl rfl) hG, neg_eq hR hw hF (.inl rfl) hG, fun z h1 h2 h3 => ?_⟩
  have hG : Good (P w) len (fun b => b = x ∨ b = y ∨ b = z) H := by
    rintro b (rfl | rfl | rfl)
    exacts [⟨hx.1, hx.2, hx'⟩, ⟨hy.1, hy.2, hy'⟩, ⟨h1, h2, h3⟩]
  exact sub_two_bufs_eq hR hw hF (.inl rfl) (.inr (.inl rfl)) (.inr (.inr rfl)) hG

/-- the kernels use the constants 257 and 65537 whatever the modulus of the object
they are called for: in 32-bit elements modulo 257, a buffer of four elements gives
another sum than the scalar code. -/
theorem C12_other_modulus_wrong {F : GF} (hF : F.ModP 257) :
    ∃ H : Heap, (∀ b, b < 2 → (gt H b).size = 4 ∧ ∀ c, c < 4 → gt (gt H b) c < F.card) ∧
      add_two_bufs 16 4 F.card 0 1 4 H ≠ BufOps.add_two_bufs F 0 1 4 H := by
  refine ⟨#[#[200, 0, 0, 0], #[100, 0, 0, 0]], by rw [hF.card]; decide, ?_⟩
  have h1 : add_two_bufs 16 4 257 0 1 4 #[#[200, 0, 0, 0], #[100, 0, 0, 0]] = .ok #[#[200, 0, 0, 0], #[300, 0, 0, 0]] := by
    decide +kernel
  rw [hF.card, h1]
  intro h
  have h2 : BufOps.add_two_bufs F 0 1 4 #[#[200, 0, 0, 0], #[100, 0, 0, 0]] = .ok #[#[200, 0, 0, 0], #[43, 0, 0, 0]] := by
    unfold BufOps.add_two_bufs
    simp [forN, Heap.rdEl, Heap.wrEl, rd, wr, hF.add]
  rw [h2] at h
  exact absurd h (by decide)

/-- a prime field modulo 257 in 16-bit or 65537 in 32-bit elements is what the kernels are for -/
theorem C12_prime_fields {O : RingModN.Obj} {w : Nat} [Fact (P w).Prime] (h : RingModN.IsPrimeField O (P w)) : O.gf.ModP (P w) :=
  GF.modP_of_sim h.sim (fun _ => Iff.rfl) (fun _ => rfl) h.card (by show O.ring.card - 1 = _; rw [h.card])

example : Props.O257.gf.ModP (P 2) := by
  have : Fact (P 2).Prime := ⟨Props.prime257⟩
  exact C12_prime_fields (w := 2) Props.isPrimeField257

/-- **C12** transforms: on buffers of any length, the vectorised `fft`, `fft_inv` and `ifft` do to memory what the
scalar code does. -/
theorem C12_transforms {rb w : Nat} (hR : rb = 16 ∨ rb = 32) (hw : w = 2 ∨ w = 4) [Fact (P w).Prime] {O : RingModN.Obj}
    (hO : RingModN.IsPrimeField O (P w)) {L dl pkt : Nat} (hL : 2 ^ L ∣ P w - 1) (hint : L < 31) {R : Radix2}
    (hB : Radix2.mk' O.gf (2 ^ L) dl = .ok R) {H : Heap} {mem inp : Array Nat}
    (hm : mem.size = 2 ^ L) (hn : 0 < inp.size) (hle : inp.size ≤ 2 ^ L) (hinj : InjPtr mem) (hdis : Disj mem inp) (ho : Okb pkt H mem)
    (hin : Props.Elems (P w) pkt H inp) :
    ((∃ d, d ≤ L ∧ max inp.size (if dl = 0 then 2 ^ L else dl) = 2 ^ d) → R.fftV rb w pkt mem inp H = R.fftH pkt mem inp H) ∧
    R.fftInvV rb w pkt mem inp H = R.fftInvH pkt mem inp H ∧
    R.ifftV rb w pkt mem inp H = R.ifftH pkt mem inp H := by
  obtain ⟨S, hV, hφ, hneg, hG, hdl, i1, i2, _⟩ := hO.radix2_built hL hB
  have hcM : O.gf.cardM1 = P w - 1 := by show O.ring.card - 1 = _; rw [hO.card]
  have hRF : R.F = O.gf := RingModN.IsPrimeField.radix2_F hB
  have hF : R.F.ModP (P w) := GF.modP_of_sim S hV hφ (by rw [hRF]; exact hO.card) (by rw [hRF]; exact hcM)
  have hv : ∀ j c, j < inp.size → c < pkt → S.V (el H (gt inp j) c) := fun j c hj hc => (hV _).mpr (hin.2 j c hj hc)
  have hdpos : 0 < R.data_len := by
    rw [hdl]; split
    · assumption
    · positivity
  refine ⟨fun ⟨d, hd, hK⟩ => ?_, Radix2.fftInvV_eq hG hR hw hF (fun c => (hV c).mp) hint hm hn hle hinj hdis ho hin.1 hv,
    Radix2.ifftV_eq hG hR hw hF (fun c => (hV c).mp) hint hdpos (hneg.coef ((hV _).mpr i1)) (by rw [hφ, i2]; push_cast; rfl) hm hn hle hinj
      hdis ho hin.1 hv⟩
  refine Radix2.fftV_eq hG hR hw hF (fun c => (hV c).mp) hm ⟨hn, d, hd, ?_⟩ hinj hdis ho hin.1 hv
  rw [hdl, ← hK]
  by_cases h0 : dl = 0
  · simp only [h0, lt_irrefl, if_false, if_true]; split <;> omega
  · rw [if_pos (show dl > 0 by omega), if_neg h0]; split <;> omega

/-- **C12** marks of out-of-range symbols: the vectorised encoder records what the scalar one does, for packets of any size -/
theorem C12_marks {R w : Nat} (hR : R = 16 ∨ R = 32) (hw : w = 2 ∨ w = 4) {B : FecBase} (hcard : B.F.card = P w) {output : Bufs}
    {props : Array Properties} {off : Nat} {H : Heap}
    (h1 : B.n_outputs ≤ output.n) (h2 : B.n_outputs ≤ output.mem.size) (h3 : output.size = B.pkt_size) (h4 : B.n_outputs ≤ props.size)
    (ho : Okb B.pkt_size H output.mem) (hv : ∀ f, f < B.n_outputs → ∀ c, c < B.pkt_size → el H (gt output.mem f) c < P w) :
    encode_post_process R w B output props off H = RsFntObj.encode_post_process B output props off H :=
  Simd.post_eq hw hR hcard h1 h2 h3 h4 ho hv

end Quad
