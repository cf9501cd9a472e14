import Verif.Model.Fec

/-!
# The constructor of `RsFnt` with counts of any size

The numbers of fragments are of type `unsigned` and the lengths the field is asked for are of type `T`, so sums of counts wrap.  The
constructors of the other model files take them as unbounded numbers, which is what the program does as long as the sums fit the types.
-/

namespace Quad.RsFnt

/-- constructor of `RsFnt<T>` with `T` of `b` bits and double size `db` (fec_base.h:297-316, fec_rs_fnt.h:69-145): `mkBase` with the wrapping
of `n_parities + n_data` and `2 * n_data`, as `unsigned` (fec_base.h:97-100) and as arguments of type `T` of `get_code_len_high_compo`
(fec_rs_fnt.h:107-108, 121; gf_ring.h:815-822).  `len_2k`, an `unsigned`, is at most the order of the field, hence fits. -/
def mkUnsigned (b db : Nat) (sys : Bool) (word_size n_data n_parities pkt_size : Nat) (mem : Nat → Nat) : Res FecBase := do
  cassert (decide (word_size < 4))
  let gf_p := wrap b (2 ^ (8 * word_size) + 1)
  let O ← RingModN.init ⟨b, db, true, gf_p⟩ 0
  let j ← Arith.jacobi O.root O.ring.card
  cassert (decide (j = -1))
  let F := O.gf
  let n ← F.codeLenHC (wrap b (wrap 32 (n_parities + n_data)))
  let r ← F.nthRoot n
  let m ← Arith.ceil2 32 n_data
  let fft ← Radix2.mk' F n m
  cassert (decide (wrap 32 (2 * n_data) < F.card))
  let len_2k ← F.codeLenHC (wrap b (wrap 32 (2 * n_data)))
  let fft_2k ← Radix2.mk' F len_2k len_2k
  let inv_r ← F.inv r
  let inv_r_powers ← powers F inv_r (n_data + 1) mem
  let r_powers ← powers F r n mem
  let code_len := wrap 32 (n_data + n_parities)
  pure { sys := sys, word_size := word_size, n_data := n_data, n_parities := n_parities,
         code_len := code_len, n_outputs := if sys then n_parities else code_len,
         pkt_size := pkt_size, n := n, r := r, F := F, fft := fft.ft pkt_size, fft_2k := fft_2k.ft pkt_size,
         inv_r_powers := inv_r_powers, r_powers := r_powers }

end Quad.RsFnt
