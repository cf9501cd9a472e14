import Verif.Lemmas.CApiRecAny
import Verif.Props.CApi

/-!
# The C interface on blocks of any contents (C58)

The blocks given to `quadiron_fnt32_decode` and `quadiron_fnt32_reconstruct` may be corrupt: any bytes, in the metadata and in the words.  The vocabulary is in
`Verif/Spec/CApi.lean`: `AnyMem` (blocks of the right size), `metaOf` (the metadata of a block: a list of locations, invalid, or with a count that wraps around),
`memFragments` and `memProps` (what the blocks hold).  `Interpolated` is in `Verif/Props/Corrupt.lean`.
-/

namespace Quad.Props
open Quad Quad.Spec Quad.CApi Polynomial

variable {c : FntCode} {bs : Nat} {U V : Array (Array Nat)} {missing : Array Bool} {R : RsFntObj} {C : CtxB} {H : Heap}

/-- **C58, refusals.**  If among the blocks that hold coded fragments and are not missing, the first whose metadata are not a list of locations has
invalid metadata - not starting with the word "FNT1", or with a count that does not fit - decode returns -1, and blocks and object are unchanged. -/
theorem C58_refused (hc : c.Ok) (h44 : bs < 2 ^ 44) (hM : c.AnyMem bs V missing) (hr : c.Reachable PKT_SIZE R C H) {f : Nat} (hf : f < c.nOut)
    (hmf : gt missing (c.first + f) = false)
    (hok : ∀ f', f' < f → gt missing (c.first + f') = false → ∃ l, metaOf bs (gt V (c.first + f')) = .marks l)
    (hbad : metaOf bs (gt V (c.first + f)) = .invalid) (mem : Nat → Nat) (junk : Nat → Nat → Nat) :
    decode R V missing bs mem junk H = .ok (-1, V, H) := by
  rw [decode_any_bad hc hr h44 hM hf hmf hok (by rw [hbad]; intro l h; cases h) mem junk, hbad]
  rfl

/-- **C58 does not hold for all blocks.**  If the first such metadata have a count of at least 2^32 - 2, reading them leaves the metadata. -/
theorem C58_undefined (hc : c.Ok) (h44 : bs < 2 ^ 44) (hM : c.AnyMem bs V missing) (hr : c.Reachable PKT_SIZE R C H) {f : Nat} (hf : f < c.nOut)
    (hmf : gt missing (c.first + f) = false)
    (hok : ∀ f', f' < f → gt missing (c.first + f') = false → ∃ l, metaOf bs (gt V (c.first + f')) = .marks l)
    (hbad : metaOf bs (gt V (c.first + f)) = .wraps) (mem : Nat → Nat) (junk : Nat → Nat → Nat) :
    decode R V missing bs mem junk H = .error .ub := by
  rw [decode_any_bad hc hr h44 hM hf hmf hok (by rw [hbad]; intro l h; cases h) mem junk, hbad]
  rfl

/-- C58: with lists of locations and too few blocks decode returns -1, and blocks and object are unchanged. -/
theorem C58_too_few (hc : c.Ok) (h44 : bs < 2 ^ 44) (hM : c.AnyMem bs V missing) (hr : c.Reachable PKT_SIZE R C H)
    (hok : ∀ f, f < c.nOut → gt missing (c.first + f) = false → ∃ l, metaOf bs (gt V (c.first + f)) = .marks l)
    (hn : missing.toList.count false < c.k) (mem : Nat → Nat) (junk : Nat → Nat → Nat) :
    decode R V missing bs mem junk H = .ok (-1, V, H) :=
  decode_any_few hc hr h44 hM hok hn mem junk

/-- **C58, the values, where the code has defined behaviour.**  There is a root of unity `g`, the one whose powers are the points of the fragments of every
encoding, such that for every object and all blocks: with lists of locations as metadata and enough blocks, decode returns 0; the data blocks
have empty metadata; if all were there and the code is systematic their words are unchanged, else word `t` of data block `i` is the one interpolated from the symbols at `t`
of the first `k` available blocks; the bytes after the last full word and the other blocks are unchanged.  Missing: systematic codes with
fewer parities than data fragments (`C58_more_data_undefined`) and metadata whose count wraps around (`C58_undefined`). -/
theorem C58_decode_partial (hc : c.Ok) (hb : c.b = 32) (hkm : c.sys = true → c.k ≤ c.m) :
    ∃ (p n : Nat) (_ : Fact p.Prime) (g : ZMod p), p = 2 ^ (8 * c.w) + 1 ∧ c.k + c.m ≤ n ∧ IsPrimitiveRoot g n ∧
    (∀ {data frags : Array (List Nat)} {fprops : Array Properties} {T : Nat}, c.Data data T → c.Encoded data frags fprops →
      ∀ t, t < T → ∃ P : (ZMod p)[X], P.degree < c.k ∧
        (if c.sys then ∀ i, i < c.k → P.eval (g ^ i) = word c.w (gt data i) t else ∀ i, i < c.k → P.coeff i = word c.w (gt data i) t) ∧
        ∀ f, f < c.nOut → P.eval (g ^ (if c.sys then c.k + f else f)) = restored c.w (gt frags f) (gt fprops f) t) ∧
    ∀ {bs : Nat} {V : Array (Array Nat)} {missing : Array Bool} {R : RsFntObj} {C : CtxB} {H : Heap}, bs < 2 ^ 44 → c.AnyMem bs V missing →
      c.Reachable PKT_SIZE R C H → (∀ f, f < c.nOut → gt missing (c.first + f) = false → ∃ l, metaOf bs (gt V (c.first + f)) = .marks l) →
      c.k ≤ missing.toList.count false → ∀ (mem : Nat → Nat) (junk : Nat → Nat → Nat),
      ∃ V' H', decode R V missing bs mem junk H = .ok (0, V', H') ∧ c.Reachable PKT_SIZE R C H' ∧ V'.size = V.size ∧
        (∀ i, i < c.k → Block bs (gt V' i) ∧ metaOf bs (gt V' i) = .marks [] ∧
          (if c.sys = true ∧ ∀ i, i < c.k → gt missing i = false then payload c.w bs (gt V' i) = payload c.w bs (gt V i)
           else ∀ t, t < bs / c.w → Interpolated c g (picked c.k (c.memFragments bs V missing))
            (fun j => c.seen (c.memFragments bs V missing) (c.memProps bs V) j t) i (word c.w (payload c.w bs (gt V' i)) t)) ∧
          ∀ x, metadata_size bs + bs / c.w * c.w ≤ x → gt (gt V' i) x = gt (gt V i) x) ∧ ∀ b, c.k ≤ b → gt V' b = gt V b := by
  obtain ⟨p, n, hp, g, r⟩ := FntCode.exists_root hc
  refine ⟨p, n, hp, g, r.ne, r.len, r.root, fun hd he t ht => root_codeword r hd he ht, ?_⟩
  intro bs V missing R C H h44 hM hr hok hn mem junk
  exact decode_any hc hb pkt_pos hr r h44 hM hok hn mem junk (by unfold FntCode.nOut; split <;> [exact hkm ‹_›; omega])

/-- Systematic codes with fewer parities than data fragments decode no blocks at all. -/
theorem C58_more_data_undefined (hc : c.Ok) (hb : c.b = 32) (h44 : bs < 2 ^ 44) (hM : c.AnyMem bs V missing) (hr : c.Reachable PKT_SIZE R C H)
    (hok : ∀ f, f < c.nOut → gt missing (c.first + f) = false → ∃ l, metaOf bs (gt V (c.first + f)) = .marks l)
    (hn : c.k ≤ missing.toList.count false) (hs : c.sys = true) (hkm : c.m < c.k) (mem : Nat → Nat) (junk : Nat → Nat → Nat) :
    decode R V missing bs mem junk H = .error .ub := by
  obtain ⟨p, n, hp, g, r⟩ := FntCode.exists_root hc
  exact decode_any_ub hc hb pkt_pos hr r h44 hM hok hn mem junk (by simp [FntCode.nOut, hs, hkm])

/-- the first coded block that is read whose metadata are not a list of locations -/
theorem first_bad {V : Array (Array Nat)} {missing : Array Bool}
    (h : ¬ ∀ f, f < c.nOut → gt missing (c.first + f) = false → ∃ l, metaOf bs (gt V (c.first + f)) = .marks l) :
    ∃ f, f < c.nOut ∧ gt missing (c.first + f) = false ∧
      (∀ f', f' < f → gt missing (c.first + f') = false → ∃ l, metaOf bs (gt V (c.first + f')) = .marks l) ∧
      (metaOf bs (gt V (c.first + f)) = .invalid ∨ metaOf bs (gt V (c.first + f)) = .wraps) := by
  classical
  have hex : ∃ f, f < c.nOut ∧ gt missing (c.first + f) = false ∧ ¬ ∃ l, metaOf bs (gt V (c.first + f)) = .marks l := by
    by_contra hno
    exact h fun f hf hm => by
      by_contra hcon
      exact hno ⟨f, hf, hm, hcon⟩
  obtain ⟨h1, h2, h3⟩ := Nat.find_spec hex
  refine ⟨Nat.find hex, h1, h2, fun f' hf' hm => ?_, ?_⟩
  · by_contra hcon
    exact Nat.find_min hex hf' ⟨by omega, hm, hcon⟩
  · cases hk : metaOf bs (gt V (c.first + Nat.find hex)) with
    | marks l => exact absurd ⟨l, hk⟩ h3
    | invalid => exact .inl rfl
    | wraps => exact .inr rfl

/-- C58, the outcomes: for all blocks, decode returns 0 or -1 or has undefined behaviour, throws nothing, and has undefined behaviour in the two cases above only.
If it returns -1 nothing is changed. -/
theorem C58_outcomes (hc : c.Ok) (hb : c.b = 32) (h44 : bs < 2 ^ 44) (hM : c.AnyMem bs V missing) (hr : c.Reachable PKT_SIZE R C H)
    (mem : Nat → Nat) (junk : Nat → Nat → Nat) :
    (decode R V missing bs mem junk H = .error .ub ∧
        ((∃ f, f < c.nOut ∧ gt missing (c.first + f) = false ∧ metaOf bs (gt V (c.first + f)) = .wraps) ∨
          (c.sys = true ∧ c.m < c.k ∧ c.k ≤ missing.toList.count false))) ∨
      decode R V missing bs mem junk H = .ok (-1, V, H) ∨
      ∃ V' H', decode R V missing bs mem junk H = .ok (0, V', H') ∧ c.Reachable PKT_SIZE R C H' := by
  by_cases hok : ∀ f, f < c.nOut → gt missing (c.first + f) = false → ∃ l, metaOf bs (gt V (c.first + f)) = .marks l
  · by_cases hn : c.k ≤ missing.toList.count false
    · by_cases hkm : c.sys = true → c.k ≤ c.m
      · obtain ⟨_, _, _, _, _, _, _, _, h⟩ := C58_decode_partial hc hb hkm
        obtain ⟨V', H', e, hr', _⟩ := h h44 hM hr hok hn mem junk
        exact .inr (.inr ⟨V', H', e, hr'⟩)
      · push Not at hkm
        exact .inl ⟨C58_more_data_undefined hc hb h44 hM hr hok hn hkm.1 hkm.2 mem junk, .inr ⟨hkm.1, hkm.2, hn⟩⟩
    · exact .inr (.inl (C58_too_few hc h44 hM hr hok (by omega) mem junk))
  · obtain ⟨f, h1, h2, h3, h4 | h4⟩ := first_bad hok
    · exact .inr (.inl (C58_refused hc h44 hM hr h1 h2 h3 h4 mem junk))
    · exact .inl ⟨C58_undefined hc h44 hM hr h1 h2 h3 h4 mem junk, .inl ⟨f, h1, h2, h4⟩⟩

/-- C58, what is not corrupt is recovered: if the first `k` available blocks have, at `t`, the symbols that they have in the encoding of the data in `U`, decode
gives the words of the data back at `t`, whatever the blocks hold elsewhere. -/
theorem C58_recover_partial (hc : c.Ok) (hb : c.b = 32) (hkm : c.sys = true → c.k ≤ c.m) (h44 : bs < 2 ^ 44) (hU : c.Mem bs U)
    {frags : Array (List Nat)} {fprops : Array Properties} (he : c.Encoded (c.dataOf bs U) frags fprops) (hM : c.AnyMem bs V missing)
    (hr : c.Reachable PKT_SIZE R C H)
    (hok : ∀ f, f < c.nOut → gt missing (c.first + f) = false → ∃ l, metaOf bs (gt V (c.first + f)) = .marks l)
    (hn : c.k ≤ missing.toList.count false) (hnall : ¬ (c.sys = true ∧ ∀ i, i < c.k → gt missing i = false)) (mem : Nat → Nat) (junk : Nat → Nat → Nat) :
    ∃ V' H', decode R V missing bs mem junk H = .ok (0, V', H') ∧ ∀ t, t < bs / c.w →
      (∀ j ∈ picked c.k (c.memFragments bs V missing), c.seen (c.memFragments bs V missing) (c.memProps bs V) j t =
        c.seen (c.fragments ((c.dataOf bs U).map some) (frags.map some)) fprops j t) →
      ∀ i, i < c.k → word c.w (payload c.w bs (gt V' i)) t = word c.w (payload c.w bs (gt U i)) t := by
  obtain ⟨p, n, hP, g, hp, hnl, hroot, hcw, h⟩ := C58_decode_partial hc hb hkm
  obtain ⟨V', H', e, _, _, q, _⟩ := h h44 hM hr hok hn mem junk
  have hd := dataOf_data (c := c) (bs := bs) (fun i hi => hU.block i (by omega))
  refine ⟨V', H', e, fun t ht hs i hi => ?_⟩
  obtain ⟨P, P1, P2, P3⟩ := hcw hd he t ht
  obtain ⟨_, _, q3, _⟩ := q i hi
  rw [if_neg hnall] at q3
  have := (q3 t ht).recovers hc hp hd he P1 P2 P3 (fun j hj => ?_) hs hi
  · rw [this, dataOf_gt hi]
  · have := picked_lt hj
    unfold FntCode.memFragments at this
    rw [Array.size_ofFn] at this
    unfold FntCode.nOut
    split <;> simp_all

/-- C58: reconstruct refuses the same metadata as decode, whatever block is asked for, -/
theorem C58_reconstruct_refused (hc : c.Ok) (h44 : bs < 2 ^ 44) {d : Nat} (hM : c.AnyRec bs V missing d) (hr : c.Reachable PKT_SIZE R C H) {f : Nat}
    (hf : f < c.nOut) (hmf : gt missing (c.first + f) = false)
    (hok : ∀ f', f' < f → gt missing (c.first + f') = false → ∃ l, metaOf bs (gt V (c.first + f')) = .marks l)
    (hbad : metaOf bs (gt V (c.first + f)) = .invalid) (mem : Nat → Nat) (junk : Nat → Nat → Nat) :
    reconstruct R C V missing d bs mem junk H = .ok (-1, V, C, H) := by
  rw [reconstruct_any_bad hc hr h44 hM hf hmf hok (by rw [hbad]; intro l h; cases h) mem junk, hbad]
  rfl

/-- and has undefined behaviour for the same. -/
theorem C58_reconstruct_undefined (hc : c.Ok) (h44 : bs < 2 ^ 44) {d : Nat} (hM : c.AnyRec bs V missing d) (hr : c.Reachable PKT_SIZE R C H) {f : Nat}
    (hf : f < c.nOut) (hmf : gt missing (c.first + f) = false)
    (hok : ∀ f', f' < f → gt missing (c.first + f') = false → ∃ l, metaOf bs (gt V (c.first + f')) = .marks l)
    (hbad : metaOf bs (gt V (c.first + f)) = .wraps) (mem : Nat → Nat) (junk : Nat → Nat → Nat) :
    reconstruct R C V missing d bs mem junk H = .error .ub := by
  rw [reconstruct_any_bad hc hr h44 hM hf hmf hok (by rw [hbad]; intro l h; cases h) mem junk, hbad]
  rfl

/-- With too few blocks reconstruct returns -1, and blocks and object are unchanged.  Excluded: a data block whose number is not less than
the number of parities, in systematic mode. -/
theorem C58_reconstruct_too_few_partial (hc : c.Ok) (h44 : bs < 2 ^ 44) {d : Nat} (hd : d < c.k + c.m) (hM : c.AnyRec bs V missing d)
    (hr : c.Reachable PKT_SIZE R C H) (hok : ∀ f, f < c.nOut → gt missing (c.first + f) = false → ∃ l, metaOf bs (gt V (c.first + f)) = .marks l)
    (hn : missing.toList.count false < c.k) (hkm : c.sys = true → d < c.k → d < c.m) (mem : Nat → Nat) (junk : Nat → Nat → Nat) :
    reconstruct R C V missing d bs mem junk H = .ok (-1, V, C, H) :=
  reconstruct_any_few hc hr h44 hM hok hn mem junk hd hkm

/-- **C58, a reconstructed data block, where the code has defined behaviour.**  With the root of unity `g` of the encodings: reconstruct returns 0, block `d` has empty
metadata; if it was missing its words are those interpolated from the first `k` available blocks, else they are unchanged; the bytes after the last full word and the
other blocks are unchanged.  Missing: codes with fewer parities than data fragments, see `C58_reconstruct_more_data_undefined`. -/
theorem C58_reconstruct_data_partial (hc : c.Ok) (hb : c.b = 32) (hs : c.sys = true) (hkm : c.k ≤ c.m) :
    ∃ (p n : Nat) (_ : Fact p.Prime) (g : ZMod p), p = 2 ^ (8 * c.w) + 1 ∧ c.k + c.m ≤ n ∧ IsPrimitiveRoot g n ∧
    (∀ {data frags : Array (List Nat)} {fprops : Array Properties} {T : Nat}, c.Data data T → c.Encoded data frags fprops →
      ∀ t, t < T → ∃ P : (ZMod p)[X], P.degree < c.k ∧
        (if c.sys then ∀ i, i < c.k → P.eval (g ^ i) = word c.w (gt data i) t else ∀ i, i < c.k → P.coeff i = word c.w (gt data i) t) ∧
        ∀ f, f < c.nOut → P.eval (g ^ (if c.sys then c.k + f else f)) = restored c.w (gt frags f) (gt fprops f) t) ∧
    ∀ {bs d : Nat} {V : Array (Array Nat)} {missing : Array Bool} {R : RsFntObj} {C : CtxB} {H : Heap}, bs < 2 ^ 44 → d < c.k → c.AnyRec bs V missing d →
      c.Reachable PKT_SIZE R C H → (∀ f, f < c.nOut → gt missing (c.first + f) = false → ∃ l, metaOf bs (gt V (c.first + f)) = .marks l) →
      c.k ≤ missing.toList.count false → ∀ (mem : Nat → Nat) (junk : Nat → Nat → Nat),
      ∃ V' H', reconstruct R C V missing d bs mem junk H = .ok (0, V', C, H') ∧ c.Reachable PKT_SIZE R C H' ∧ V'.size = V.size ∧
        Block bs (gt V' d) ∧ metaOf bs (gt V' d) = .marks [] ∧
        (if gt missing d then ∀ t, t < bs / c.w → Interpolated c g (picked c.k (c.memFragments bs V missing))
            (fun j => c.seen (c.memFragments bs V missing) (c.memProps bs V) j t) d (word c.w (payload c.w bs (gt V' d)) t)
         else payload c.w bs (gt V' d) = payload c.w bs (gt V d)) ∧
        (∀ x, metadata_size bs + bs / c.w * c.w ≤ x → gt (gt V' d) x = gt (gt V d) x) ∧ ∀ b, b ≠ d → gt V' b = gt V b := by
  obtain ⟨p, n, hp, g, r⟩ := FntCode.exists_root hc
  refine ⟨p, n, hp, g, r.ne, r.len, r.root, fun hd he t ht => root_codeword r hd he ht, ?_⟩
  intro bs d V missing R C H h44 hd hM hr hok hn mem junk
  exact reconstruct_any_data hc hb pkt_pos hr r h44 hM hok hn hs hd hkm mem junk

/-- With fewer parities than data fragments, some data block missing and at least one word in a block, reconstruction of a data block has undefined behaviour. -/
theorem C58_reconstruct_more_data_undefined (hc : c.Ok) (hb : c.b = 32) (h44 : bs < 2 ^ 44) {d : Nat} (hd : d < c.k) (hM : c.AnyRec bs V missing d)
    (hr : c.Reachable PKT_SIZE R C H) (hok : ∀ f, f < c.nOut → gt missing (c.first + f) = false → ∃ l, metaOf bs (gt V (c.first + f)) = .marks l)
    (hn : c.k ≤ missing.toList.count false) (hs : c.sys = true) (hkm : c.m < c.k) (hmd : ∃ i, i < c.k ∧ gt missing i = true) (hT : 0 < bs / c.w)
    (mem : Nat → Nat) (junk : Nat → Nat → Nat) : reconstruct R C V missing d bs mem junk H = .error .ub := by
  obtain ⟨p, n, hp, g, r⟩ := FntCode.exists_root hc
  exact reconstruct_any_ub hc hb pkt_pos hr r h44 hM hok hn hs hd hmd hT mem junk hkm

/-- **C58, a reconstructed coded block.**  With the root of unity `g` of the encodings: there are data `D` - the data blocks that are not missing and, unless none
is missing, words interpolated from the first `k` available blocks - such that reconstruct makes block `d` the block that encoding `D` would make: the payload
is its fragment and the metadata are its list of marked locations, if that list leaves a word of the metadata area free.  If the list fills the area the
behaviour is undefined; if it is longer the result is -1.  In no case are other blocks changed. -/
theorem C58_reconstruct_coded_partial (hc : c.Ok) (hb : c.b = 32) :
    ∃ (p n : Nat) (_ : Fact p.Prime) (g : ZMod p), p = 2 ^ (8 * c.w) + 1 ∧ c.k + c.m ≤ n ∧ IsPrimitiveRoot g n ∧
    (∀ {data frags : Array (List Nat)} {fprops : Array Properties} {T : Nat}, c.Data data T → c.Encoded data frags fprops →
      ∀ t, t < T → ∃ P : (ZMod p)[X], P.degree < c.k ∧
        (if c.sys then ∀ i, i < c.k → P.eval (g ^ i) = word c.w (gt data i) t else ∀ i, i < c.k → P.coeff i = word c.w (gt data i) t) ∧
        ∀ f, f < c.nOut → P.eval (g ^ (if c.sys then c.k + f else f)) = restored c.w (gt frags f) (gt fprops f) t) ∧
    ∀ {bs d : Nat} {V : Array (Array Nat)} {missing : Array Bool} {R : RsFntObj} {C : CtxB} {H : Heap}, bs < 2 ^ 32 → c.first ≤ d → d < c.k + c.m →
      c.AnyRec bs V missing d → c.Reachable PKT_SIZE R C H →
      (∀ f, f < c.nOut → gt missing (c.first + f) = false → ∃ l, metaOf bs (gt V (c.first + f)) = .marks l) →
      c.k ≤ missing.toList.count false → ∀ (mem : Nat → Nat) (junk : Nat → Nat → Nat),
      ∃ (D frags : Array (List Nat)) (fprops : Array Properties), c.Data D (bs / c.w) ∧ c.Encoded D frags fprops ∧
        (∀ i, i < c.k → (c.sys = true → gt missing i = false → gt D i = payload c.w bs (gt V i)) ∧
          (¬ (c.sys = true ∧ ∀ i, i < c.k → gt missing i = false) → ∀ t, t < bs / c.w →
            Interpolated c g (picked c.k (c.memFragments bs V missing))
              (fun j => c.seen (c.memFragments bs V missing) (c.memProps bs V) j t) i (word c.w (gt D i) t))) ∧
        (4 * ((gt fprops (d - c.first)).props.length + 2) < metadata_size bs → ∃ V' C' H', reconstruct R C V missing d bs mem junk H = .ok (0, V', C', H') ∧
          c.Reachable PKT_SIZE R C' H' ∧ V'.size = V.size ∧ Block bs (gt V' d) ∧ payload c.w bs (gt V' d) = gt frags (d - c.first) ∧
          metaOf bs (gt V' d) = .marks ((gt fprops (d - c.first)).props.map Prod.fst) ∧
          (∀ x, metadata_size bs + bs / c.w * c.w ≤ x → gt (gt V' d) x = gt (gt V d) x) ∧ ∀ b, b ≠ d → gt V' b = gt V b) ∧
        (4 * ((gt fprops (d - c.first)).props.length + 2) = metadata_size bs → reconstruct R C V missing d bs mem junk H = .error .ub) ∧
        (metadata_size bs < 4 * ((gt fprops (d - c.first)).props.length + 2) → ∃ V' C' H', reconstruct R C V missing d bs mem junk H = .ok (-1, V', C', H') ∧
          c.Reachable PKT_SIZE R C' H' ∧ V'.size = V.size ∧ ∀ b, b ≠ d → gt V' b = gt V b) := by
  obtain ⟨p, n, hp, g, r⟩ := FntCode.exists_root hc
  refine ⟨p, n, hp, g, r.ne, r.len, r.root, fun hd he t ht => root_codeword r hd he ht, ?_⟩
  intro bs d V missing R C H h32 hd1 hd2 hM hr hok hn mem junk
  obtain ⟨D, frags, fprops, h1, h2, h3, h4, h5, h6⟩ := reconstruct_any_output hc hb pkt_pos hr r h32 hM hok hn hd1 hd2 mem junk
  have hm := metadata_size_eq bs
  refine ⟨D, frags, fprops, h1, h2, h3, fun h => ?_, fun h => h5 (by omega), fun h => h6 (by omega)⟩
  obtain ⟨V', C', H', a1, a2, a3, a4⟩ := h4 (by omega)
  exact ⟨V', C', H', a1, a2, a3.size, a3.block, a3.frag, a4, a3.rest, a3.other⟩

/-- C58, reconstruction does not spread errors: if the first `k` available blocks have, at every location, the symbols of the encoding of the data in `U`, and so have the data
blocks that are there, the reconstructed coded block is the one of that encoding, whatever the other available blocks hold. -/
theorem C58_reconstruct_recover_partial (hc : c.Ok) (hb : c.b = 32) (h32 : bs < 2 ^ 32) (hU : c.Mem bs U) {frags : Array (List Nat)} {fprops : Array Properties}
    (he : c.Encoded (c.dataOf bs U) frags fprops) {d : Nat} (hd1 : c.first ≤ d) (hd2 : d < c.k + c.m) (hM : c.AnyRec bs V missing d)
    (hr : c.Reachable PKT_SIZE R C H)
    (hok : ∀ f, f < c.nOut → gt missing (c.first + f) = false → ∃ l, metaOf bs (gt V (c.first + f)) = .marks l)
    (hn : c.k ≤ missing.toList.count false) (hnall : ¬ (c.sys = true ∧ ∀ i, i < c.k → gt missing i = false))
    (hsame : ∀ t, t < bs / c.w → ∀ j ∈ picked c.k (c.memFragments bs V missing), c.seen (c.memFragments bs V missing) (c.memProps bs V) j t =
        c.seen (c.fragments ((c.dataOf bs U).map some) (frags.map some)) fprops j t)
    (hfit : 4 * ((gt fprops (d - c.first)).props.length + 2) < metadata_size bs) (mem : Nat → Nat) (junk : Nat → Nat → Nat) :
    ∃ V' C' H', reconstruct R C V missing d bs mem junk H = .ok (0, V', C', H') ∧ payload c.w bs (gt V' d) = gt frags (d - c.first) ∧
      metaOf bs (gt V' d) = .marks ((gt fprops (d - c.first)).props.map Prod.fst) := by
  obtain ⟨p, n, hP, g, hp, hnl, hroot, hcw, h⟩ := C58_reconstruct_coded_partial hc hb
  obtain ⟨D, fr, fp, h1, h2, h3, h4, _⟩ := h h32 hd1 hd2 hM hr hok hn mem junk
  have hd := dataOf_data (c := c) (bs := bs) (fun i hi => hU.block i (by omega))
  have hD : D = c.dataOf bs U := by
    refine gt_ext (by rw [h1.size, hd.size]) (fun i hi => ?_)
    rw [h1.size] at hi
    refine ext_words (h1.len i hi) (hd.len i hi) (h1.bytes i hi) (hd.bytes i hi) (fun t ht => ?_)
    obtain ⟨P, P1, P2, P3⟩ := hcw hd he t ht
    refine ((h3 i hi).2 hnall t ht).recovers hc hp hd he P1 P2 P3 (fun j hj => ?_) (hsame t ht) hi
    have := picked_lt hj
    unfold FntCode.memFragments at this
    rw [Array.size_ofFn] at this
    unfold FntCode.nOut
    split <;> simp_all
  subst hD
  obtain ⟨fr', fp', _, _, _, hu, _⟩ := C36_streams_unique_partial hc hd
  obtain ⟨rfl, rfl⟩ := (hu _ _).mp he
  obtain ⟨rfl, rfl⟩ := (hu _ _).mp h2
  obtain ⟨V', C', H', a1, _, _, _, a5, a6, _⟩ := h4 hfit
  exact ⟨V', C', H', a1, a5, a6⟩

/-! ## The hypotheses are met -/

/-- blocks of 12 bytes whose metadata start with `hd`; all other bytes are arbitrary -/
def memHd (hd : List Nat) (n : Nat) : Array (Array Nat) :=
  Array.ofFn (fun i : Fin n => Array.ofFn (fun x : Fin 76 => if x.1 < hd.length then hd.getD x.1 0 else (7 * i.1 + x.1) % 256))

theorem memHd_any {hd : List Nat} (h : ∀ x ∈ hd, x < 256) {missing : Array Bool} (hm : missing.size = c.k + c.m) : c.AnyMem 12 (memHd hd (c.k + c.m)) missing := by
  refine ⟨by simp [memHd], hm, fun i hi _ => ?_⟩
  unfold memHd
  rw [gt_ofFn hi]
  refine block_of (by simp [metadata_size]) (fun x => ?_)
  by_cases hx : x < 76
  · rw [gt_ofFn hx]
    simp only
    split
    · rename_i hl
      rw [List.getD_eq_getElem _ _ hl]
      exact h _ (List.getElem_mem hl)
    · exact Nat.mod_lt _ (by norm_num)
  · rw [gt, Array.getD_eq_getD_getElem?, Array.getElem?_eq_none (by simpa using hx)]; decide

/-- only the blocks that are there and block `d` need to have the right size -/
theorem memHd_rec {hd : List Nat} (h : ∀ x ∈ hd, x < 256) {missing : Array Bool} (hm : missing.size = c.k + c.m) (d : Nat) :
    c.AnyRec 12 (memHd hd (c.k + c.m)) missing d :=
  ⟨(memHd_any h hm).size, hm, fun i hi _ => (memHd_any (missing := Array.replicate (c.k + c.m) false) h (by simp)).block i hi (.inr (gt_replicate hi))⟩

/-- reconstruction of a missing data block and of a missing coded block -/
example : codeC.AnyRec 12 (memHd [0x46, 0x4E, 0x54, 0x31, 0, 0, 0, 1, 0, 0, 0, 5] 7) #[true, true, false, false, true, false, false] 1 ∧
    codeC.AnyRec 12 (memHd [0x46, 0x4E, 0x54, 0x31, 0, 0, 0, 1, 0, 0, 0, 5] 7) #[true, true, false, false, true, false, false] 4 ∧
    codeC.sys = true ∧ codeC.k ≤ codeC.m ∧ 1 < codeC.k ∧ codeC.first ≤ 4 ∧ 4 < codeC.k + codeC.m :=
  ⟨memHd_rec (c := codeC) (by decide) rfl 1, memHd_rec (c := codeC) (by decide) rfl 4, by decide, by decide, by decide, by decide, by decide⟩

/-- with the count 2 and the locations 5 and 2^32 - 1 the blocks are decoded, three of them missing -/
example : codeC.AnyMem 12 (memHd [0x46, 0x4E, 0x54, 0x31, 0, 0, 0, 2, 0, 0, 0, 5, 255, 255, 255, 255] 7) #[true, true, false, false, true, false, false] ∧
    (∀ f, f < codeC.nOut → metaOf 12 (gt (memHd [0x46, 0x4E, 0x54, 0x31, 0, 0, 0, 2, 0, 0, 0, 5, 255, 255, 255, 255] 7) (codeC.first + f))
      = .marks [5, 2 ^ 32 - 1]) ∧
    codeC.k ≤ #[true, true, false, false, true, false, false].toList.count false ∧ codeC.k ≤ codeC.m := by
  refine ⟨memHd_any (c := codeC) (by decide) rfl, fun f hf => ?_, by decide, by decide⟩
  have : f = 0 ∨ f = 1 ∨ f = 2 ∨ f = 3 := by change f < 4 at hf; omega
  rcases this with rfl | rfl | rfl | rfl <;> decide +kernel

/-- blocks that never were encoded are refused -/
example : codeC.AnyMem 12 (memHd [] 7) #[true, true, false, false, true, false, false] ∧
    metaOf 12 (gt (memHd [] 7) (codeC.first + 0)) = .invalid := ⟨memHd_any (c := codeC) (by decide) rfl, by decide +kernel⟩

/-- a count of 2^32 - 1 -/
example : codeC.AnyMem 12 (memHd [0x46, 0x4E, 0x54, 0x31, 255, 255, 255, 255] 7) #[true, true, false, false, true, false, false] ∧
    metaOf 12 (gt (memHd [0x46, 0x4E, 0x54, 0x31, 255, 255, 255, 255] 7) (codeC.first + 0)) = .wraps := ⟨memHd_any (c := codeC) (by decide) rfl, by decide +kernel⟩

end Quad.Props
