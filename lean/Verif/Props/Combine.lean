import Verif.Spec.Combine
import Verif.Props.FecNf4Vert
import Verif.Props.GfpBuilt
import Verif.Lemmas.FecAnyMarks

/-!
# C81: the codes over prime fields code linear combinations to linear combinations
-/

namespace Quad.Props
open Quad Quad.Spec Polynomial

private theorem cast_of_mod {p a b x y c : Nat} (h : c ≡ x * a + y * b [MOD p]) :
    ((c : Nat) : ZMod p) = (x : ZMod p) * a + (y : ZMod p) * b := by
  rw [(ZMod.natCast_eq_natCast_iff _ _ _).mpr h]
  push_cast
  rfl

private theorem mod_of_cast {p a b x y c : Nat} (h : ((c : Nat) : ZMod p) = (x : ZMod p) * a + (y : ZMod p) * b) :
    c ≡ x * a + y * b [MOD p] := by
  refine (ZMod.natCast_eq_natCast_iff _ _ _).mp ?_
  rw [h]
  push_cast
  rfl

/-- C81 for the Fermat number codes, systematic or not: where the words of the data are a linear combination, modulo 257 or 65537, so are the
symbols of all fragments, restored with their properties.  The three encodings may be by different objects, builds and packet sizes, and of
streams of different lengths. -/
theorem C81_fnt {c : FntCode} (hc : c.Ok) {data data' sum frags frags' frags'' : Array (List Nat)} {fprops fprops' fprops'' : Array Properties}
    {T T' T'' x y t : Nat} (hd : c.Data data T) (hd' : c.Data data' T') (hd'' : c.Data sum T'')
    (he : c.Encoded data frags fprops) (he' : c.Encoded data' frags' fprops') (he'' : c.Encoded sum frags'' fprops'')
    (ht : t < T) (ht' : t < T') (ht'' : t < T'') (hs : CombinesAt (2 ^ (8 * c.w) + 1) x y c.w c.k t data data' sum) :
    ∀ f, f < c.nOut → restored c.w (gt frags'' f) (gt fprops'' f) t ≤ 2 ^ (8 * c.w) ∧ restored c.w (gt frags'' f) (gt fprops'' f) t ≡
      x * restored c.w (gt frags f) (gt fprops f) t + y * restored c.w (gt frags' f) (gt fprops' f) t [MOD 2 ^ (8 * c.w) + 1] := by
  obtain ⟨p, n, _, g, r⟩ := FntCode.exists_root hc
  obtain ⟨P, p1, p2, p3⟩ := root_codeword r hd he ht
  obtain ⟨P', q1, q2, q3⟩ := root_codeword r hd' he' ht'
  obtain ⟨Q, r1, r2, r3⟩ := root_codeword r hd'' he'' ht''
  have hinj := RsFnt.inj_pow (k := c.k) r.root (by have := r.len; omega)
  have hdeg : (C (x : ZMod p) * P + C (y : ZMod p) * P').degree < (c.k : WithBot Nat) := by
    have key : ∀ (z : ZMod p) (R : (ZMod p)[X]), R.degree < (c.k : WithBot Nat) → (C z * R).degree < (c.k : WithBot Nat) := fun z R h =>
      lt_of_le_of_lt (by rw [← smul_eq_C_mul]; exact degree_smul_le z R) h
    exact lt_of_le_of_lt (degree_add_le _ _) (max_lt (key _ _ p1) (key _ _ q1))
  have hp := r.ne
  have hw : ∀ i, i < c.k → ((word c.w (gt sum i) t : Nat) : ZMod p) =
      (x : ZMod p) * word c.w (gt data i) t + (y : ZMod p) * word c.w (gt data' i) t := fun i hi => by
    have := hs i hi
    rw [← hp] at this
    exact cast_of_mod this
  have hQ : Q = C (x : ZMod p) * P + C (y : ZMod p) * P' := by
    by_cases hsys : c.sys = true
    · rw [if_pos hsys] at p2 q2 r2
      refine eq_of_degrees_lt_of_eval_index_eq (Finset.range c.k) (v := fun i => g ^ i) hinj (by simpa using r1) (by simpa using hdeg) ?_
      intro i hi
      have hi := Finset.mem_range.mp hi
      simp only [eval_add, eval_mul, eval_C, p2 i hi, q2 i hi, r2 i hi, hw i hi]
    · rw [if_neg hsys] at p2 q2 r2
      ext i
      by_cases hi : i < c.k
      · simp only [coeff_add, coeff_C_mul, p2 i hi, q2 i hi, r2 i hi, hw i hi]
      · have hle : (c.k : WithBot Nat) ≤ i := by exact_mod_cast Nat.le_of_not_lt hi
        rw [coeff_eq_zero_of_degree_lt (lt_of_lt_of_le r1 hle), coeff_eq_zero_of_degree_lt (lt_of_lt_of_le hdeg hle)]
  intro f hf
  have hle : restored c.w (gt frags'' f) (gt fprops'' f) t ≤ 2 ^ (8 * c.w) := by
    unfold restored
    split
    · exact le_rfl
    · rw [(he''.isCode hd'' r).frag f hf, ← wordAt_word, MarkCode.wordAt_flat_mod ht'', two_pow_8]
      exact (Nat.mod_lt _ (by positivity)).le
  refine ⟨hle, ?_⟩
  rw [← hp]
  refine mod_of_cast ?_
  rw [← p3 f hf, ← q3 f hf, ← r3 f hf, hQ]
  simp only [eval_add, eval_mul, eval_C]

/-- coding word by word gives the fragments and properties of coding by packets -/
private theorem encoded_of_words {c : FntCode} (hc : c.Ok) (hsys : c.sys = false) {pkt : Nat} {mem mem' : Nat → Nat} {B : FecBase}
    (e : RsFnt.mkBase c.b c.db c.sys c.w c.k c.m pkt mem = .ok B) {data frags : Array (List Nat)} {fprops : Array Properties} {T : Nat}
    (hd : c.Data data T) (he : (RsFnt.fec B).encode_streams_horizontal data (Array.replicate c.nOut []) (Array.replicate c.nOut .empty) mem' =
      .ok (frags, fprops)) : c.Encoded data frags fprops := by
  obtain ⟨p, n, _, g, r⟩ := FntCode.exists_root hc
  obtain ⟨B', e', h1, h2, h3, H⟩ := r.horiz hsys pkt mem
  rw [e] at e'
  cases e'
  have hw : 0 < c.w := by rcases hc.hw with h | h <;> omega
  have hD : Gf2nData c.w c.k data T := ⟨hd.size, hd.bytes, fun i hi => (hd.len i hi).ge, 0, hc.hk, by
    rw [hd.len 0 hc.hk, Nat.succ_mul]; omega⟩
  have C := H.codeOf h1 h2 h3 hD he
  obtain ⟨fr, fp, _, _, _, u, _⟩ := C36_streams_unique_partial hc hd
  have hE := (u fr fp).2 ⟨rfl, rfl⟩
  obtain ⟨q1, q2⟩ := (fnt_codeOf r hd hE).unique C
  rw [← q1, ← q2]
  exact hE

/-- C81 for the non-systematic Fermat number code word by word. -/
theorem C81_fnt_words {c : FntCode} (hc : c.Ok) (hsys : c.sys = false) {pkt : Nat} {mem mem1 mem2 mem3 : Nat → Nat} {B : FecBase}
    (e : RsFnt.mkBase c.b c.db c.sys c.w c.k c.m pkt mem = .ok B)
    {data data' sum frags frags' frags'' : Array (List Nat)} {fprops fprops' fprops'' : Array Properties}
    {T T' T'' x y t : Nat} (hd : c.Data data T) (hd' : c.Data data' T') (hd'' : c.Data sum T'')
    (he : (RsFnt.fec B).encode_streams_horizontal data (Array.replicate c.nOut []) (Array.replicate c.nOut .empty) mem1 = .ok (frags, fprops))
    (he' : (RsFnt.fec B).encode_streams_horizontal data' (Array.replicate c.nOut []) (Array.replicate c.nOut .empty) mem2 = .ok (frags', fprops'))
    (he'' : (RsFnt.fec B).encode_streams_horizontal sum (Array.replicate c.nOut []) (Array.replicate c.nOut .empty) mem3 = .ok (frags'', fprops''))
    (ht : t < T) (ht' : t < T') (ht'' : t < T'') (hs : CombinesAt (2 ^ (8 * c.w) + 1) x y c.w c.k t data data' sum) :
    ∀ f, f < c.nOut → restored c.w (gt frags'' f) (gt fprops'' f) t ≤ 2 ^ (8 * c.w) ∧ restored c.w (gt frags'' f) (gt fprops'' f) t ≡
      x * restored c.w (gt frags f) (gt fprops f) t + y * restored c.w (gt frags' f) (gt fprops' f) t [MOD 2 ^ (8 * c.w) + 1] :=
  C81_fnt hc hd hd' hd'' (encoded_of_words hc hsys e hd he) (encoded_of_words hc hsys e hd' he') (encoded_of_words hc hsys e hd'' he'')
    ht ht' ht'' hs

/-- C81 for the packed Fermat code, symbol by symbol: the object `c` codes word by word. -/
theorem C81_nf4_words {k m : Nat} (hk : 0 < k) (hm : 0 < m) (hlen : k + m ≤ 65536) (htwo : 2 * k ≤ 65536) {w : Nat}
    (hw : w = 2 ∨ w = 4 ∨ w = 8) {b : Nat} {simd : Option (Nat × (Nat → Nat))} {pkt : Nat} {mem : Nat → Nat} (hB : Nf4Build b (w / 2) simd)
    {c : RsNf4.Code} (e : RsNf4.mkCode b simd w k m pkt mem = .ok c)
    {data data' sum frags frags' frags'' : Array (List Nat)} {fprops fprops' fprops'' : Array Properties} {mem1 mem2 mem3 : Nat → Nat}
    {T T' T'' x y t l : Nat} (hd : StreamData w k data T) (hd' : StreamData w k data' T') (hd'' : StreamData w k sum T'')
    (he : (RsNf4.fec c).encode_streams_horizontal data (Array.replicate (k + m) []) (Array.replicate (k + m) .empty) mem1 = .ok (frags, fprops))
    (he' : (RsNf4.fec c).encode_streams_horizontal data' (Array.replicate (k + m) []) (Array.replicate (k + m) .empty) mem2 = .ok (frags', fprops'))
    (he'' : (RsNf4.fec c).encode_streams_horizontal sum (Array.replicate (k + m) []) (Array.replicate (k + m) .empty) mem3 = .ok (frags'', fprops''))
    (ht : t < T) (ht' : t < T') (ht'' : t < T'') (hl : l < w / 2)
    (hs : ∀ i, i < k → lane16 (word w (gt sum i) t) l ≡ x * lane16 (word w (gt data i) t) l + y * lane16 (word w (gt data' i) t) l [MOD 65537]) :
    ∀ f, f < k + m → restored16 w (gt frags'' f) (gt fprops'' f) t l ≡
      x * restored16 w (gt frags f) (gt fprops f) t l + y * restored16 w (gt frags' f) (gt fprops' f) t l [MOD 65537] := by
  obtain ⟨n, g, _, _, hall⟩ := C32_packets_partial hk hm hlen htwo
  have key : ∀ {D fr : Array (List Nat)} {fp : Array Properties} {S : Nat} {mem' : Nat → Nat}, StreamData w k D S → t < S →
      (RsNf4.fec c).encode_streams_horizontal D (Array.replicate (k + m) []) (Array.replicate (k + m) .empty) mem' = .ok (fr, fp) →
      ∀ f, f < k + m → (restored16 w (gt fr f) (gt fp f) t l : ZMod 65537) =
        ∑ i ∈ Finset.range k, (lane16 (word w (gt D i) t) l : ZMod 65537) * (g ^ f) ^ i := by
    intro D fr fp S mem' hD hS eD f hf
    obtain ⟨fr', fp', _, _, _, h4, _, h6⟩ := hall hw hD
    obtain ⟨c', e1, e2⟩ := h6 (pkt := pkt) mem mem' hB
    rw [e] at e1
    cases e1
    rw [eD] at e2
    cases e2
    exact h4 f t l hf hS hl
  intro f hf
  refine mod_of_cast ?_
  rw [key hd ht he f hf, key hd' ht' he' f hf, key hd'' ht'' he'' f hf, Finset.mul_sum, Finset.mul_sum, ← Finset.sum_add_distrib]
  refine Finset.sum_congr rfl (fun i hi => ?_)
  rw [cast_of_mod (hs i (Finset.mem_range.mp hi))]
  ring

/-- C81 for the packed Fermat code on packets, symbol by symbol; the three encodings may be by different objects, builds and packet sizes. -/
theorem C81_nf4 {w k m : Nat} (hw : w = 2 ∨ w = 4 ∨ w = 8) (hk : 0 < k) (hm : 0 < m) (hlen : k + m ≤ 65536) (htwo : 2 * k ≤ 65536)
    {data data' sum frags frags' frags'' : Array (List Nat)} {fprops fprops' fprops'' : Array Properties}
    {T T' T'' x y t l : Nat} (hd : StreamData w k data T) (hd' : StreamData w k data' T') (hd'' : StreamData w k sum T'')
    (he : Nf4Encoded w k m data frags fprops) (he' : Nf4Encoded w k m data' frags' fprops') (he'' : Nf4Encoded w k m sum frags'' fprops'')
    (ht : t < T) (ht' : t < T') (ht'' : t < T'') (hl : l < w / 2)
    (hs : ∀ i, i < k → lane16 (word w (gt sum i) t) l ≡ x * lane16 (word w (gt data i) t) l + y * lane16 (word w (gt data' i) t) l [MOD 65537]) :
    ∀ f, f < k + m → restored16 w (gt frags'' f) (gt fprops'' f) t l ≡
      x * restored16 w (gt frags f) (gt fprops f) t l + y * restored16 w (gt frags' f) (gt fprops' f) t l [MOD 65537] := by
  obtain ⟨n, g, _, _, hall⟩ := C32_packets_partial hk hm hlen htwo
  have key : ∀ {D fr : Array (List Nat)} {fp : Array Properties} {S : Nat}, StreamData w k D S → t < S → Nf4Encoded w k m D fr fp →
      ∀ f, f < k + m → (restored16 w (gt fr f) (gt fp f) t l : ZMod 65537) =
        ∑ i ∈ Finset.range k, (lane16 (word w (gt D i) t) l : ZMod 65537) * (g ^ f) ^ i := by
    intro D fr fp S hD hS hE f hf
    obtain ⟨b, reg, hi, pkt, mem, R, en, en', j, H, H', hreg, hB, hpkt, e, eD⟩ := hE
    obtain ⟨fr', fp', _, _, _, h4, h5, _⟩ := hall hw hD
    obtain ⟨R', e1, P⟩ := h5 mem hreg hB hpkt
    rw [e] at e1
    cases e1
    obtain ⟨o, _, _, e2, so, ho⟩ := P.encode en (Array.replicate (k + m) []) (Array.replicate (k + m) .empty) j H (by simp) (by simp)
    rw [eD] at e2
    cases e2
    have h0 := ho f hf
    rw [gt_replicate hf, List.nil_append] at h0
    have hsz : f < fr.size := by rw [Array.size_map] at so; omega
    have h1 : gt (fr.map some) f = some (gt fr f) := by simp [gt, hsz]
    rw [h1] at h0
    rw [Option.some.inj h0]
    exact h4 f t l hf hS hl
  intro f hf
  refine mod_of_cast ?_
  rw [key hd ht he f hf, key hd' ht' he' f hf, key hd'' ht'' he'' f hf, Finset.mul_sum, Finset.mul_sum, ← Finset.sum_add_distrib]
  refine Finset.sum_congr rfl (fun i hi => ?_)
  rw [cast_of_mod (hs i (Finset.mem_range.mp hi))]
  ring

/-- C81 for the code on FFTs over GF(p), whenever the constructor returns: `p` is the size of its field. -/
theorem C81_gfp {b db w k m : Nat} (hT : WordType b db) (hk : 0 < k) (hm : 0 < m) (hlt : k + m < 2 ^ 32) {mem : Nat → Nat}
    {c : FecBase × Nat} (e : RsGfpFft.mkBase b db w k m mem = .ok c) :
    ∃ p, p.Prime ∧ 256 ^ w ≤ p ∧ p ≤ 2 * 256 ^ w ∧
      ∀ {data data' sum frags frags' frags'' : Array (List Nat)} {fprops fprops' fprops'' : Array Properties} {mem1 mem2 mem3 : Nat → Nat}
        {T T' T'' x y t : Nat}, Gf2nData w k data T → Gf2nData w k data' T' → Gf2nData w k sum T'' →
        (RsGfpFft.fec b c).encode_streams_horizontal data (Array.replicate (k + m) []) (Array.replicate (k + m) .empty) mem1 = .ok (frags, fprops) →
        (RsGfpFft.fec b c).encode_streams_horizontal data' (Array.replicate (k + m) []) (Array.replicate (k + m) .empty) mem2 = .ok (frags', fprops') →
        (RsGfpFft.fec b c).encode_streams_horizontal sum (Array.replicate (k + m) []) (Array.replicate (k + m) .empty) mem3 = .ok (frags'', fprops'') →
        t < T → t < T' → t < T'' → CombinesAt p x y w k t data data' sum →
        ∀ f, f < k + m → unmarked w (gt frags'' f) (gt fprops'' f) t < p ∧ unmarked w (gt frags'' f) (gt fprops'' f) t ≡
          x * unmarked w (gt frags f) (gt fprops f) t + y * unmarked w (gt frags' f) (gt fprops' f) t [MOD p] := by
  obtain ⟨p, hp, B, S, n, l2, g2, e1, hw, hpb, G, hφ, _⟩ := RsGfpFft.mkBase_field (gfp_accepted hT hk hm hlt e) mem
  rw [e] at e1
  cases e1
  subst hw
  have H := FftCode.hspec G (RsGfpFft.is_fec b (B, 256 ^ B.word_size)) (RsGfpFft.post_spec (by positivity) (G.code_len.trans G.n_outputs.symm))
    (RsGfpFft.prep_spec hpb)
  refine ⟨p, hp.out, G.qL, G.qL2, ?_⟩
  intro data data' sum frags frags' frags'' fprops fprops' fprops'' mem1 mem2 mem3 T T' T'' x y t hd hd' hd'' he he' he'' ht ht' ht'' hs f hf
  have key : ∀ {D fr : Array (List Nat)} {fp : Array Properties} {N : Nat} {mem' : Nat → Nat}, Gf2nData B.word_size k D N → t < N →
      (RsGfpFft.fec b (B, 256 ^ B.word_size)).encode_streams_horizontal D (Array.replicate (k + m) []) (Array.replicate (k + m) .empty) mem' =
        .ok (fr, fp) →
      unmarked B.word_size (gt fr f) (gt fp f) t < p ∧ ((unmarked B.word_size (gt fr f) (gt fp f) t : Nat) : ZMod p) =
        ∑ i ∈ Finset.range k, ((word B.word_size (gt D i) t : Nat) : ZMod p) * (S.φ B.r ^ f) ^ i := by
    intro D fr fp N mem' hD hN eD
    have C : CodeOf B.word_size k (k + m) (FftCode.stored B (256 ^ B.word_size)) (FftCode.markOf B (256 ^ B.word_size)) D N fr fp :=
      H.codeOf rfl G.n_data G.n_outputs hD eD
    have hr : IsRow B.word_size B.n_data (rowAt B.word_size k (gt D) t) := by rw [G.n_data]; exact rowAt_isRow hD.bytes t
    obtain ⟨s1, s2⟩ := FftCode.sym_spec G hr f
    set s := FftCode.sym B (rowAt B.word_size k (gt D) t) f with hsd
    have hu : unmarked B.word_size (gt fr f) (gt fp f) t = s := by
      have hword : word B.word_size (gt fr f) t = s % 256 ^ B.word_size := by
        rw [C.frag f hf, ← wordAt_word, wordAt_flat hN (by unfold FftCode.stored; exact Nat.mod_lt _ (by positivity))]
        rfl
      have hmem : t ∈ (gt fp f).props.map Prod.fst ↔ 256 ^ B.word_size ≤ s := by
        rw [C.prop f hf, List.mem_map]
        constructor
        · rintro ⟨z, hz, rfl⟩
          have := (mem_marksOf.mp hz).2
          unfold FftCode.markOf at this
          by_contra hne
          rw [← hsd, if_neg hne] at this
          cases this
        · intro h
          exact ⟨(t, OOR_MARK), mem_marksOf.mpr ⟨hN, by unfold FftCode.markOf; rw [← hsd, if_pos h]⟩, rfl⟩
      have h2 := G.qL2
      unfold unmarked
      by_cases h : 256 ^ B.word_size ≤ s
      · rw [if_pos (hmem.mpr h), hword, Nat.mod_eq_sub_mod h, Nat.mod_eq_of_lt (by omega)]; omega
      · rw [if_neg (fun hh => h (hmem.mp hh)), hword, Nat.mod_eq_of_lt (by omega)]
    rw [hu]
    refine ⟨s1, ?_⟩
    rw [← hφ, s2]
    unfold polyOf
    rw [Polynomial.eval_finsetSum, show (rowAt B.word_size k (gt D) t).size = k by simp [rowAt]]
    refine Finset.sum_congr rfl (fun i hi => ?_)
    rw [rowAt_gt (Finset.mem_range.mp hi), wordAt_word]
    simp only [eval_mul, eval_C, eval_pow, eval_X, hφ]
  refine ⟨(key hd'' ht'' he'').1, mod_of_cast ?_⟩
  rw [(key hd ht he).2, (key hd' ht' he').2, (key hd'' ht'' he'').2, Finset.mul_sum, Finset.mul_sum, ← Finset.sum_add_distrib]
  refine Finset.sum_congr rfl (fun i hi => ?_)
  rw [cast_of_mod (hs i (Finset.mem_range.mp hi))]
  ring

/-! ### the hypotheses are met -/

/-- 3 times the first data plus 5 times the second, modulo 257, in words of one byte; the second word is 3 * 200 + 5 * 100 = 4 * 257 + 72 -/
example : ∃ (c : FntCode) (data data' sum frags frags' frags'' : Array (List Nat)) (fprops fprops' fprops'' : Array Properties), c.Ok ∧
    c.Data data 2 ∧ c.Data data' 2 ∧ c.Data sum 2 ∧ c.Encoded data frags fprops ∧ c.Encoded data' frags' fprops' ∧
    c.Encoded sum frags'' fprops'' ∧ CombinesAt (2 ^ (8 * c.w) + 1) 3 5 c.w c.k 1 data data' sum := by
  have hc : (⟨32, 64, 1, 2, 3, true⟩ : FntCode).Ok := ⟨.inl ⟨rfl, rfl⟩, .inl rfl, by decide, by decide, by decide, by decide⟩
  have h1 : (⟨32, 64, 1, 2, 3, true⟩ : FntCode).Data #[[1, 200], [7, 0]] 2 := ⟨rfl, by decide, by decide⟩
  have h2 : (⟨32, 64, 1, 2, 3, true⟩ : FntCode).Data #[[2, 100], [0, 50]] 2 := ⟨rfl, by decide, by decide⟩
  have h3 : (⟨32, 64, 1, 2, 3, true⟩ : FntCode).Data #[[13, 72], [21, 250]] 2 := ⟨rfl, by decide, by decide⟩
  obtain ⟨_, _, _, _, _, u1, _⟩ := C36_streams_unique_partial hc h1
  obtain ⟨_, _, _, _, _, u2, _⟩ := C36_streams_unique_partial hc h2
  obtain ⟨_, _, _, _, _, u3, _⟩ := C36_streams_unique_partial hc h3
  exact ⟨_, _, _, _, _, _, _, _, _, _, hc, h1, h2, h3, (u1 _ _).2 ⟨rfl, rfl⟩, (u2 _ _).2 ⟨rfl, rfl⟩, (u3 _ _).2 ⟨rfl, rfl⟩,
    by unfold CombinesAt; decide⟩

/-- the sum of two data, modulo 65537, in words of two symbols; symbol 1 of the first stream is 65535 + 3 = 65537 + 1 -/
example : ∃ frags frags' frags'' fprops fprops' fprops'', Nf4Encoded 4 2 3 #[[1, 0, 255, 255], [7, 0, 0, 0]] frags fprops ∧
    Nf4Encoded 4 2 3 #[[2, 0, 3, 0], [0, 1, 0, 0]] frags' fprops' ∧ Nf4Encoded 4 2 3 #[[3, 0, 1, 0], [7, 1, 0, 0]] frags'' fprops'' ∧
    ∀ i, i < 2 → lane16 (word 4 (gt (#[[3, 0, 1, 0], [7, 1, 0, 0]] : Array (List Nat)) i) 0) 1 ≡
      1 * lane16 (word 4 (gt (#[[1, 0, 255, 255], [7, 0, 0, 0]] : Array (List Nat)) i) 0) 1 +
        1 * lane16 (word 4 (gt (#[[2, 0, 3, 0], [0, 1, 0, 0]] : Array (List Nat)) i) 0) 1 [MOD 65537] := by
  have key : ∀ {D : Array (List Nat)}, StreamData 4 2 D 1 → ∃ fr fp, Nf4Encoded 4 2 3 D fr fp := fun hD =>
    nf4_encodes (.inr (.inl rfl)) (by decide) (by decide) (by decide) (by decide) hD
  obtain ⟨_, _, h1⟩ := key (D := #[[1, 0, 255, 255], [7, 0, 0, 0]]) ⟨rfl, by decide, by decide⟩
  obtain ⟨_, _, h2⟩ := key (D := #[[2, 0, 3, 0], [0, 1, 0, 0]]) ⟨rfl, by decide, by decide⟩
  obtain ⟨_, _, h3⟩ := key (D := #[[3, 0, 1, 0], [7, 1, 0, 0]]) ⟨rfl, by decide, by decide⟩
  exact ⟨_, _, _, _, _, _, h1, h2, h3, by decide⟩

end Quad.Props
