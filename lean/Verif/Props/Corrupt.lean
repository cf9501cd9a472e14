import Verif.Props.FecVert

/-!
# Fragments with any contents (C57)

Fragments that are decoded may be corrupt: any bytes, and any properties, in any order, with any locations and markers, also
repeated.  The vocabulary is in Spec/Fnt.lean (`AnyStreams`, `AnyBlocks`, `picked`, `seen`).  Since decodings of corrupt
fragments are steps of a history (`Reachable.decodeAny`, `Reachable.decodeBlocksAny`), all theorems about histories also say that they do not
harm later calls.
-/

namespace Quad.Props
open Quad Spec Polynomial

variable {c : FntCode}

theorem word_flat {w T t : Nat} {f : Nat → Nat} (ht : t < T) : word w (flat w f T) t = f t % 2 ^ (8 * w) := by
  rw [← wordAt_word, flat_mod (g := fun t => f t % 256 ^ w) (fun _ _ => rfl), wordAt_flat ht (Nat.mod_lt _ (by positivity)), two_pow_8]

theorem flat_bytes (w : Nat) (f : Nat → Nat) (T : Nat) : ∀ x ∈ flat w f T, x < 256 := by
  intro x hx
  obtain ⟨t, _, h⟩ := List.mem_flatMap.mp hx
  exact leBytes_lt _ _ x h

/-- C57, streams: whatever the fragments and their properties contain, decoding ends, without undefined behaviour or
exception, and leaves the object fit for use.  It decodes if enough streams are there, and then appends as many bytes to each wanted stream as the
fragments have; else nothing is written. -/
theorem C57_streams (hc : c.Ok) {pkt : Nat} (hpkt : 0 < pkt) {R : RsFntObj} {C : CtxB} {H : Heap} (hr : c.Reachable pkt R C H) {T : Nat}
    {datas pars outs : Array (Option (List Nat))} {props : Array Properties} (ha : c.AnyStreams T datas pars props) (ho : outs.size = c.k)
    (mem : Nat → Nat) (junk : Nat → Nat → Nat) :
    ∃ v o H', (R.fecV c.b).decode_streams_vertical datas pars props outs mem junk H = .ok (v, o, H') ∧ c.Reachable pkt R C H' ∧
      (v = true ↔ c.k ≤ (if c.sys then avail datas else 0) + avail pars) ∧ o.size = c.k ∧
      (if v = true ∧ ¬ (c.sys = true ∧ avail datas = c.k) then ∀ i, i < c.k → ∃ r : List Nat, r.length = T * c.w ∧ (∀ x ∈ r, x < 256) ∧
          gt o i = (gt outs i).map (fun s => s ++ r)
       else o = outs) := by
  obtain ⟨p, n, _, g, r⟩ := FntCode.exists_root hc
  obtain ⟨v, o, H', e, _, q⟩ := (hr.inv hpkt r).decode_any hpkt ha mem junk ho
  refine ⟨v, o, H', e, hr.decodeAny ha e, ?_⟩
  by_cases h1 : c.sys = true ∧ avail datas = c.k
  · rw [if_pos h1] at q
    obtain ⟨rfl, rfl⟩ := q
    exact ⟨by rw [if_pos h1.1, h1.2]; simp, ho, by rw [if_neg (by simp [h1])]⟩
  · rw [if_neg h1] at q
    by_cases h2 : (if c.sys then avail datas else 0) + avail pars < c.k
    · rw [if_pos h2] at q
      obtain ⟨rfl, rfl⟩ := q
      exact ⟨by simpa using h2, ho, by rw [if_neg (by simp)]⟩
    · rw [if_neg h2] at q
      obtain ⟨rfl, q1, _, q2⟩ := q
      refine ⟨by simpa using h2, q1, ?_⟩
      rw [if_pos ⟨rfl, h1⟩]
      intro i hi
      exact ⟨_, flat_length _ _ _, flat_bytes _ _ _, q2 i hi⟩

/-- the word `i` that decoding makes of the symbols `y` of the fragments `ids`: with `P` the polynomial of degree less than `k` that has the value `y j`
at the point of each fragment `j`, it is the low `8w` bits of the value of `P` at the point of fragment `i`, in systematic mode, else those of
the coefficient `i` -/
def Interpolated (c : FntCode) {p : Nat} [Fact p.Prime] (g : ZMod p) (ids : List Nat) (y : Nat → Nat) (i x : Nat) : Prop :=
  ∃ P : (ZMod p)[X], P.degree < c.k ∧ (∀ j ∈ ids, P.eval (g ^ j) = (y j : ZMod p)) ∧
    (∀ Q : (ZMod p)[X], Q.degree < c.k → (∀ j ∈ ids, Q.eval (g ^ j) = (y j : ZMod p)) → Q = P) ∧
    x = (if c.sys then (P.eval (g ^ i)).val else (P.coeff i).val) % 2 ^ (8 * c.w)

theorem gt_mem {l : List Nat} {j : Nat} (h : j < l.length) : gt l.toArray j ∈ l := by
  rw [show gt l.toArray j = l[j] by simp [gt, h]]
  exact List.getElem_mem h

theorem mem_gt {l : List Nat} {x : Nat} (h : x ∈ l) : ∃ j, j < l.length ∧ gt l.toArray j = x := by
  obtain ⟨j, hj, rfl⟩ := List.mem_iff_getElem.mp h
  exact ⟨j, hj, by simp [gt, hj]⟩

theorem exists_interpolant {p k : Nat} [Fact p.Prime] {x : Nat → ZMod p} (hx : Set.InjOn x (Finset.range k)) (y : Nat → ZMod p) :
    ∃ P : (ZMod p)[X], P.degree < k ∧ (∀ j, j < k → P.eval (x j) = y j) ∧
      ∀ Q : (ZMod p)[X], Q.degree < k → (∀ j, j < k → Q.eval (x j) = y j) → Q = P := by
  refine ⟨Lagrange.interpolate (Finset.range k) x y, ?_, fun j hj => ?_, fun Q hQ hq => ?_⟩
  · have := Lagrange.degree_interpolate_lt y hx
    rwa [Finset.card_range] at this
  · exact Lagrange.eval_interpolate_at_node _ hx (Finset.mem_range.mpr hj)
  · exact Lagrange.eq_interpolate_of_eval_eq y hx (by rwa [Finset.card_range]) (fun j hj => hq _ (Finset.mem_range.mp hj))

theorem interpolated_ival {p n : Nat} [Fact p.Prime] {g : ZMod p} (r : c.Root p n g) {ids : List Nat}
    (hv : ValidIds c.k (if c.sys then c.k + c.nOut else c.nOut) ids.toArray) (y : Nat → Nat) (i : Nat) :
    Interpolated c g ids y i (RsFntObj.ival g c.sys c.k ids.toArray (fun j => y (gt ids.toArray j)) i % 2 ^ (8 * c.w)) := by
  have hN : (if c.sys then c.k + c.nOut else c.nOut) ≤ n := by
    have := r.len
    unfold FntCode.nOut
    split <;> simp_all
  have hl : ids.length = c.k := by simpa using hv.size
  obtain ⟨P, hd, hev, hu⟩ := exists_interpolant (RsFntObj.ids_inj r.root hN hv) (fun j => ((y (gt ids.toArray j) : Nat) : ZMod p))
  refine ⟨P, hd, fun j hj => ?_, fun Q hQ hq => hu Q hQ fun j hj => hq _ (gt_mem (by omega)), ?_⟩
  · obtain ⟨l, hl1, rfl⟩ := mem_gt hj
    exact hev l (by omega)
  · rw [RsFntObj.ival_eq (sys := c.sys) r.root hN hv hd hev i]

/-- C57, the values: there is a root of unity `g`, the one whose powers are the points of the fragments of every encoding, such that word `t` decoded for
stream `i` is the one interpolated from the symbols at `t` of the first `k` available fragments. -/
theorem C57_streams_value (hc : c.Ok) : ∃ (p n : Nat) (_ : Fact p.Prime) (g : ZMod p), p = 2 ^ (8 * c.w) + 1 ∧ c.k + c.m ≤ n ∧ IsPrimitiveRoot g n ∧
    (∀ {data frags : Array (List Nat)} {fprops : Array Properties} {T : Nat}, c.Data data T → c.Encoded data frags fprops →
      ∀ t, t < T → ∃ P : (ZMod p)[X], P.degree < c.k ∧
        (if c.sys then ∀ i, i < c.k → P.eval (g ^ i) = word c.w (gt data i) t else ∀ i, i < c.k → P.coeff i = word c.w (gt data i) t) ∧
        ∀ f, f < c.nOut → P.eval (g ^ (if c.sys then c.k + f else f)) = restored c.w (gt frags f) (gt fprops f) t) ∧
    ∀ {pkt : Nat} {R : RsFntObj} {C : CtxB} {H : Heap}, 0 < pkt → c.Reachable pkt R C H → ∀ {T : Nat}
      {datas pars outs : Array (Option (List Nat))} {props : Array Properties}, c.AnyStreams T datas pars props → outs.size = c.k →
      ¬ (c.sys = true ∧ avail datas = c.k) → c.k ≤ (if c.sys then avail datas else 0) + avail pars →
      ∀ (mem : Nat → Nat) (junk : Nat → Nat → Nat), ∃ o H', ∃ out : Nat → List Nat,
        (R.fecV c.b).decode_streams_vertical datas pars props outs mem junk H = .ok (true, o, H') ∧
        ∀ i, i < c.k → gt o i = (gt outs i).map (fun s => s ++ out i) ∧ (out i).length = T * c.w ∧
          ∀ t, t < T → Interpolated c g (picked c.k (c.fragments datas pars)) (fun j => c.seen (c.fragments datas pars) props j t) i
            (word c.w (out i) t) := by
  obtain ⟨p, n, hp, g, r⟩ := FntCode.exists_root hc
  refine ⟨p, n, hp, g, r.ne, r.len, r.root, fun hd he t ht => root_codeword r hd he ht, ?_⟩
  intro pkt R C H hpkt hr T datas pars outs props ha ho hn hen mem junk
  obtain ⟨v, o, H', e, _, q⟩ := (hr.inv hpkt r).decode_any hpkt ha mem junk ho
  rw [if_neg hn, if_neg (by omega)] at q
  obtain ⟨rfl, q1, hv, q2⟩ := q
  refine ⟨o, H', _, e, fun i hi => ⟨q2 i hi, flat_length _ _ _, fun t ht => ?_⟩⟩
  unfold FntCode.decoded
  rw [word_flat ht]
  exact interpolated_ival r hv (fun j => c.seen (c.fragments datas pars) props j t) i

theorem Interpolated.congr {p : Nat} [Fact p.Prime] {g : ZMod p} {ids : List Nat} {y y' : Nat → Nat} {i x x' : Nat}
    (h : Interpolated c g ids y i x) (h' : Interpolated c g ids y' i x') (hy : ∀ j ∈ ids, y j = y' j) : x = x' := by
  obtain ⟨P, a1, a2, _, rfl⟩ := h
  obtain ⟨Q, b1, b2, b3, rfl⟩ := h'
  rw [b3 P a1 (fun j hj => by rw [a2 j hj, hy j hj])]

/-- C57, errors are confined: take two decodings from the same available fragments, by any two objects of the code.  If the first `k`
available fragments have the same symbols at location `t`, the decoded words at `t` are the same, whatever the fragments hold elsewhere. -/
theorem C57_streams_local (hc : c.Ok) {pkt pkt' : Nat} (hpkt : 0 < pkt) (hpkt' : 0 < pkt') {R R' : RsFntObj} {C C' : CtxB} {H H' : Heap}
    (hr : c.Reachable pkt R C H) (hr' : c.Reachable pkt' R' C' H') {T T' : Nat} {datas pars outs datas' pars' outs' : Array (Option (List Nat))}
    {props props' : Array Properties} (ha : c.AnyStreams T datas pars props) (ha' : c.AnyStreams T' datas' pars' props')
    (ho : outs.size = c.k) (ho' : outs'.size = c.k) (hn : ¬ (c.sys = true ∧ avail datas = c.k)) (hn' : ¬ (c.sys = true ∧ avail datas' = c.k))
    (hen : c.k ≤ (if c.sys then avail datas else 0) + avail pars) (hen' : c.k ≤ (if c.sys then avail datas' else 0) + avail pars')
    (hp : picked c.k (c.fragments datas pars) = picked c.k (c.fragments datas' pars')) (mem mem' : Nat → Nat) (junk junk' : Nat → Nat → Nat) :
    ∃ o H1 o' H1', ∃ out out' : Nat → List Nat, (R.fecV c.b).decode_streams_vertical datas pars props outs mem junk H = .ok (true, o, H1) ∧
      (R'.fecV c.b).decode_streams_vertical datas' pars' props' outs' mem' junk' H' = .ok (true, o', H1') ∧
      (∀ i, i < c.k → gt o i = (gt outs i).map (fun s => s ++ out i) ∧ gt o' i = (gt outs' i).map (fun s => s ++ out' i) ∧
        (out i).length = T * c.w ∧ (out' i).length = T' * c.w) ∧
      ∀ t, t < T → t < T' → (∀ j ∈ picked c.k (c.fragments datas pars),
          c.seen (c.fragments datas pars) props j t = c.seen (c.fragments datas' pars') props' j t) →
        ∀ i, i < c.k → word c.w (out i) t = word c.w (out' i) t := by
  obtain ⟨p, n, hP, g, _, _, _, _, h⟩ := C57_streams_value hc
  obtain ⟨o, H1, out, e, q⟩ := h hpkt hr ha ho hn hen mem junk
  obtain ⟨o', H1', out', e', q'⟩ := h hpkt' hr' ha' ho' hn' hen' mem' junk'
  refine ⟨o, H1, o', H1', out, out', e, e', fun i hi => ⟨(q i hi).1, (q' i hi).1, (q i hi).2.1, (q' i hi).2.1⟩, fun t ht ht' hs i hi => ?_⟩
  have h1 := (q i hi).2.2 t ht
  have h2 := (q' i hi).2.2 t ht'
  rw [← hp] at h2
  exact h1.congr h2 hs

/-- the symbols that the fragments of an encoding show are the values of the polynomial -/
theorem eval_seen (hc : c.Ok) {p : Nat} [Fact p.Prime] {g : ZMod p} {data frags : Array (List Nat)}
    {fprops : Array Properties} {T : Nat} (hd : c.Data data T) (he : c.Encoded data frags fprops) {t : Nat} {P : (ZMod p)[X]}
    (P2 : if c.sys then ∀ i, i < c.k → P.eval (g ^ i) = word c.w (gt data i) t else ∀ i, i < c.k → P.coeff i = word c.w (gt data i) t)
    (P3 : ∀ f, f < c.nOut → P.eval (g ^ (if c.sys then c.k + f else f)) = restored c.w (gt frags f) (gt fprops f) t) {j : Nat}
    (hj : j < if c.sys then c.k + c.nOut else c.nOut) :
    P.eval (g ^ j) = (c.seen (c.fragments (data.map some) (frags.map some)) fprops j t : ZMod p) := by
  obtain ⟨frags', fprops', z1, z2, _, hu, _⟩ := C36_streams_unique_partial hc hd
  obtain ⟨rfl, rfl⟩ := (hu frags fprops).mp he
  unfold FntCode.seen FntCode.fragments
  have hmark : ∀ f, f < c.nOut → ((t, OOR_MARK) ∈ (gt fprops f).props ↔ t ∈ (gt fprops f).props.map Prod.fst) := by
    intro f hf
    obtain ⟨p', n', _, g', r'⟩ := FntCode.exists_root hc
    rw [(he.isCode hd r').prop f hf, List.mem_map]
    constructor
    · exact fun h => ⟨_, h, rfl⟩
    · rintro ⟨x, hx, rfl⟩
      have h1 := (mem_marksOf.mp hx).2
      have h2 : x.2 = OOR_MARK := by
        unfold FntCode.mark at h1
        split at h1
        · exact (Option.some.inj h1).symm
        · cases h1
      rw [← h2]; exact hx
  by_cases hsy : c.sys = true
  · simp only [hsy, if_true] at hj P2 P3 ⊢
    by_cases hlt : j < c.k
    · rw [P2 j hlt, if_neg (by simp; omega), gt_append, if_pos (by simpa [hd.size] using hlt), gt_map (by rw [hd.size]; exact hlt)]
      rfl
    · have hf : j - c.k < c.nOut := by omega
      have := P3 (j - c.k) hf
      rw [show c.k + (j - c.k) = j by omega] at this
      rw [this]
      have hg : gt (data.map some ++ frags.map some) j = some (gt frags (j - c.k)) := by
        rw [gt_append, if_neg (by simpa [hd.size] using hlt), Array.size_map, hd.size, gt_map (by omega)]
      rw [hg]
      apply congrArg Nat.cast
      unfold restored
      by_cases hm : t ∈ (gt fprops (j - c.k)).props.map Prod.fst
      · rw [if_pos hm, if_pos ⟨.inr (by omega), (hmark _ hf).mpr hm⟩]
      · rw [if_neg hm, if_neg (fun h => hm ((hmark _ hf).mp h.2))]; rfl
  · have hsf : c.sys = false := by simpa using hsy
    simp only [hsf, Bool.false_eq_true, if_false] at hj P3 ⊢
    rw [P3 j hj]
    rw [gt_map (by omega)]
    apply congrArg Nat.cast
    unfold restored
    by_cases hm : t ∈ (gt fprops j).props.map Prod.fst
    · rw [if_pos hm, if_pos ⟨.inl trivial, (hmark _ hj).mpr hm⟩]
    · rw [if_neg hm, if_neg (fun h => hm ((hmark _ hj).mp h.2))]; rfl

/-- symbols of an encoding give the data back -/
theorem Interpolated.recovers (hc : c.Ok) {p : Nat} [Fact p.Prime] {g : ZMod p} (hp : p = 2 ^ (8 * c.w) + 1) {data frags : Array (List Nat)}
    {fprops : Array Properties} {T : Nat} (hd : c.Data data T) (he : c.Encoded data frags fprops) {t : Nat} {P : (ZMod p)[X]} (P1 : P.degree < c.k)
    (P2 : if c.sys then ∀ i, i < c.k → P.eval (g ^ i) = word c.w (gt data i) t else ∀ i, i < c.k → P.coeff i = word c.w (gt data i) t)
    (P3 : ∀ f, f < c.nOut → P.eval (g ^ (if c.sys then c.k + f else f)) = restored c.w (gt frags f) (gt fprops f) t)
    {ids : List Nat} (hids : ∀ j ∈ ids, j < if c.sys then c.k + c.nOut else c.nOut) {y : Nat → Nat}
    (hy : ∀ j ∈ ids, y j = c.seen (c.fragments (data.map some) (frags.map some)) fprops j t) {i x : Nat} (hi : i < c.k)
    (h : Interpolated c g ids y i x) : x = word c.w (gt data i) t := by
  obtain ⟨Q, Q1, Q2, Q3, Q4⟩ := h
  obtain ⟨frags', fprops', z1, z2, _, hu, _⟩ := C36_streams_unique_partial hc hd
  obtain ⟨rfl, rfl⟩ := (hu frags fprops).mp he
  have hwl : ∀ i, i < c.k → word c.w (gt data i) t < 2 ^ (8 * c.w) := fun i hi => by
    rw [← wordAt_word, two_pow_8]
    exact wordAt_lt (hd.bytes i hi) t
  have hnout : ∀ j, j < (if c.sys then c.k + c.nOut else c.nOut) → P.eval (g ^ j) =
      (c.seen (c.fragments (data.map some) (frags.map some)) fprops j t : ZMod p) := fun j hj => eval_seen hc hd he P2 P3 hj
  have hPQ : P = Q := Q3 P P1 (fun j hj => by rw [hnout j (hids j hj), hy j hj])
  rw [Q4, ← hPQ]
  have hlt := hwl i hi
  by_cases hsy : c.sys = true
  · rw [if_pos hsy] at P2 ⊢
    rw [P2 i hi, ZMod.val_natCast_of_lt (by omega), Nat.mod_eq_of_lt hlt]
  · rw [if_neg hsy] at P2 ⊢
    rw [P2 i hi, ZMod.val_natCast_of_lt (by omega), Nat.mod_eq_of_lt hlt]

theorem seen_le {fr : Array (Option (List Nat))} (hb : ∀ j s, gt fr j = some s → ∀ x ∈ s, x < 256) (props : Array Properties) (j t : Nat) :
    c.seen fr props j t ≤ 2 ^ (8 * c.w) := by
  unfold FntCode.seen
  by_cases hq : (c.sys = false ∨ c.k ≤ j) ∧ (t, OOR_MARK) ∈ (gt props (if c.sys then j - c.k else j)).props
  · rw [if_pos hq]
  · rw [if_neg hq, ← wordAt_word]
    have : wordAt c.w ((gt fr j).getD []) t < 256 ^ c.w := wordAt_lt (fun x hx => by
      cases h : gt fr j with
      | none => rw [h] at hx; cases hx
      | some s => rw [h] at hx; exact hb j s h x hx) t
    rw [two_pow_8]
    exact this.le

/-- a symbol that is not that of the encoding spoils the words of its location -/
theorem Interpolated.wrong (hc : c.Ok) {p n : Nat} [Fact p.Prime] {g : ZMod p} (hp : p = 2 ^ (8 * c.w) + 1) (hn : c.k + c.m ≤ n) (hg : IsPrimitiveRoot g n)
    {data frags : Array (List Nat)} {fprops : Array Properties} {T : Nat} (hd : c.Data data T) (he : c.Encoded data frags fprops) {t : Nat} {P : (ZMod p)[X]}
    (P1 : P.degree < c.k)
    (P2 : if c.sys then ∀ i, i < c.k → P.eval (g ^ i) = word c.w (gt data i) t else ∀ i, i < c.k → P.coeff i = word c.w (gt data i) t)
    (P3 : ∀ f, f < c.nOut → P.eval (g ^ (if c.sys then c.k + f else f)) = restored c.w (gt frags f) (gt fprops f) t)
    {ids : List Nat} (hids : ∀ j ∈ ids, j < if c.sys then c.k + c.nOut else c.nOut) {y : Nat → Nat} {j : Nat} (hj : j ∈ ids)
    (hy : y j ≤ 2 ^ (8 * c.w)) (hne : y j ≠ c.seen (c.fragments (data.map some) (frags.map some)) fprops j t)
    (hle : c.seen (c.fragments (data.map some) (frags.map some)) fprops j t ≤ 2 ^ (8 * c.w))
    (hnz : ∀ i, i < c.k → word c.w (gt data i) t ≠ 0) {x : Nat → Nat} (h : ∀ i, i < c.k → Interpolated c g ids y i (x i)) :
    ∃ i, i < c.k ∧ x i ≠ word c.w (gt data i) t := by
  by_contra hall
  have hall : ∀ i, i < c.k → x i = word c.w (gt data i) t := fun i hi => by
    by_contra hh
    exact hall ⟨i, hi, hh⟩
  obtain ⟨Q, Q1, Q2, Q3, _⟩ := h 0 hc.hk
  have hval : ∀ i, i < c.k → (if c.sys then (Q.eval (g ^ i)) else (Q.coeff i)) = (word c.w (gt data i) t : ZMod p) := by
    intro i hi
    obtain ⟨Q', _, q2, _, q4⟩ := h i hi
    have e : Q' = Q := Q3 Q' (by assumption) q2
    subst e
    rw [hall i hi] at q4
    have hz := hnz i hi
    have key : ∀ a : ZMod p, word c.w (gt data i) t = a.val % 2 ^ (8 * c.w) → a = (word c.w (gt data i) t : ZMod p) := by
      intro a ha
      have hlt := ZMod.val_lt a
      rcases Nat.lt_or_ge a.val (2 ^ (8 * c.w)) with h1 | h1
      · rw [Nat.mod_eq_of_lt h1] at ha
        rw [ha, ZMod.natCast_zmod_val]
      · rw [show a.val = 2 ^ (8 * c.w) by omega, Nat.mod_self] at ha
        exact absurd ha hz
    by_cases hs : c.sys = true
    · rw [if_pos hs] at q4 ⊢; exact key _ q4
    · rw [if_neg hs] at q4 ⊢; exact key _ q4
  have hQP : Q = P := by
    by_cases hs : c.sys = true
    · simp only [if_pos hs] at hval P2
      have hinj : Set.InjOn (fun i : Nat => g ^ i) (Finset.range c.k) := by
        intro a ha b hb hab
        exact hg.pow_inj (by have := Finset.mem_range.mp (Finset.mem_coe.mp ha); omega) (by have := Finset.mem_range.mp (Finset.mem_coe.mp hb); omega) hab
      have e1 := Lagrange.eq_interpolate_of_eval_eq (s := Finset.range c.k) (v := fun i => g ^ i) (fun i => (word c.w (gt data i) t : ZMod p)) hinj
        (by rw [Finset.card_range]; exact Q1) (fun i hi => hval i (Finset.mem_range.mp hi))
      have e2 := Lagrange.eq_interpolate_of_eval_eq (s := Finset.range c.k) (v := fun i => g ^ i) (fun i => (word c.w (gt data i) t : ZMod p)) hinj
        (by rw [Finset.card_range]; exact P1) (fun i hi => P2 i (Finset.mem_range.mp hi))
      rw [e1, e2]
    · simp only [if_neg hs] at hval P2
      ext i
      rcases Nat.lt_or_ge i c.k with hi | hi
      · rw [hval i hi, P2 i hi]
      · rw [Polynomial.coeff_eq_zero_of_degree_lt (lt_of_lt_of_le Q1 (by exact_mod_cast hi)),
          Polynomial.coeff_eq_zero_of_degree_lt (lt_of_lt_of_le P1 (by exact_mod_cast hi))]
  have h1 := Q2 j hj
  rw [hQP, eval_seen hc hd he P2 P3 (hids j hj)] at h1
  have h2 := congrArg ZMod.val h1
  rw [ZMod.val_natCast_of_lt (by omega), ZMod.val_natCast_of_lt (by omega)] at h2
  exact hne h2.symm

theorem picked_lt {k : Nat} {fr : Array (Option (List Nat))} {j : Nat} (h : j ∈ picked k fr) : j < fr.size :=
  List.mem_range.mp (List.mem_filter.mp (List.mem_of_mem_take h)).1

theorem fragments_size {T : Nat} {datas pars : Array (Option (List Nat))} {props : Array Properties} (ha : c.AnyStreams T datas pars props) :
    (c.fragments datas pars).size = if c.sys then c.k + c.nOut else c.nOut := by
  unfold FntCode.fragments
  by_cases hsy : c.sys = true
  · rw [if_pos hsy, if_pos hsy, Array.size_append, ha.dsize hsy, ha.psize]
  · rw [if_neg hsy, if_neg hsy, ha.psize]

/-- C57, what is not corrupt is recovered: if, at location `t`, the first `k` available fragments have the symbols of the encoding of `data`, the words
decoded at `t` are those of `data`, whatever the fragments hold elsewhere. -/
theorem C57_streams_recover (hc : c.Ok) {data frags : Array (List Nat)} {fprops : Array Properties} {T : Nat} (hd : c.Data data T)
    (he : c.Encoded data frags fprops) {pkt : Nat} (hpkt : 0 < pkt) {R : RsFntObj} {C : CtxB} {H : Heap} (hr : c.Reachable pkt R C H)
    {datas pars outs : Array (Option (List Nat))} {props : Array Properties} (ha : c.AnyStreams T datas pars props) (ho : outs.size = c.k)
    (hn : ¬ (c.sys = true ∧ avail datas = c.k)) (hen : c.k ≤ (if c.sys then avail datas else 0) + avail pars)
    (mem : Nat → Nat) (junk : Nat → Nat → Nat) :
    ∃ o H', ∃ out : Nat → List Nat, (R.fecV c.b).decode_streams_vertical datas pars props outs mem junk H = .ok (true, o, H') ∧
      (∀ i, i < c.k → gt o i = (gt outs i).map (fun s => s ++ out i) ∧ (out i).length = T * c.w) ∧
      ∀ t, t < T → (∀ j ∈ picked c.k (c.fragments datas pars), c.seen (c.fragments datas pars) props j t =
          c.seen (c.fragments (data.map some) (frags.map some)) fprops j t) →
        ∀ i, i < c.k → word c.w (out i) t = word c.w (gt data i) t := by
  obtain ⟨p, n, hP, g, hp, hnl, hroot, hcw, h⟩ := C57_streams_value hc
  obtain ⟨o, H', out, e, q⟩ := h hpkt hr ha ho hn hen mem junk
  refine ⟨o, H', out, e, fun i hi => ⟨(q i hi).1, (q i hi).2.1⟩, fun t ht hs i hi => ?_⟩
  obtain ⟨P, P1, P2, P3⟩ := hcw hd he t ht
  exact ((q i hi).2.2 t ht).recovers hc hp hd he P1 P2 P3 (fun j hj => by rw [← fragments_size ha]; exact picked_lt hj) hs hi

theorem any_bytes {T : Nat} {datas pars : Array (Option (List Nat))} {props : Array Properties} (ha : c.AnyStreams T datas pars props) :
    ∀ j s, gt (c.fragments datas pars) j = some s → ∀ x ∈ s, x < 256 := by
  intro j s h
  have hnone : ∀ (a : Array (Option (List Nat))) i s, gt a i = some s → i < a.size := by
    intro a i s hi
    by_contra hge
    have h0 : gt a i = none := by simp [gt, Nat.le_of_not_lt hge]; rfl
    rw [h0] at hi; cases hi
  unfold FntCode.fragments at h
  by_cases hsy : c.sys = true
  · rw [if_pos hsy, gt_append] at h
    by_cases hlt : j < datas.size
    · rw [if_pos hlt] at h
      exact (ha.dat hsy j s (by rw [← ha.dsize hsy]; exact hlt) h).2
    · rw [if_neg hlt] at h
      exact (ha.par _ s (by rw [← ha.psize]; exact hnone _ _ _ h) h).2
  · rw [if_neg hsy] at h
    exact (ha.par _ s (by rw [← ha.psize]; exact hnone _ _ _ h) h).2

theorem encoded_bytes (hc : c.Ok) {data frags : Array (List Nat)} {fprops : Array Properties} {T : Nat} (hd : c.Data data T)
    (he : c.Encoded data frags fprops) : ∀ j s, gt (c.fragments (data.map some) (frags.map some)) j = some s → ∀ x ∈ s, x < 256 := by
  obtain ⟨_, _, z1, z2, z3, hu, _⟩ := C36_streams_unique_partial hc hd
  obtain ⟨rfl, rfl⟩ := (hu frags fprops).mp he
  obtain ⟨p, n, _, g, r⟩ := FntCode.exists_root hc
  have hI := he.isCode hd r
  refine any_bytes (T := T) (props := fprops) ⟨fun _ => by simpa using hd.size, by simpa using z1, z2, fun _ i s hi h => ?_, fun f s hf h => ?_⟩
  · rw [gt_map (by rw [hd.size]; exact hi)] at h
    cases h
    exact ⟨hd.len i hi, hd.bytes i hi⟩
  · rw [gt_map (by omega)] at h
    cases h
    refine ⟨z3 f hf, ?_⟩
    rw [hI.frag f hf]
    exact flat_bytes _ _ _

/-- C57, corruption that is used does harm: if, at location `t`, one of the first `k` available fragments has a symbol that is not that of the encoding
of `data`, decoding still reports success, and if the words of `data` at `t` are not zero, at least one of the words decoded at `t` is wrong. -/
theorem C57_streams_wrong (hc : c.Ok) {data frags : Array (List Nat)} {fprops : Array Properties} {T : Nat} (hd : c.Data data T)
    (he : c.Encoded data frags fprops) {pkt : Nat} (hpkt : 0 < pkt) {R : RsFntObj} {C : CtxB} {H : Heap} (hr : c.Reachable pkt R C H)
    {datas pars outs : Array (Option (List Nat))} {props : Array Properties} (ha : c.AnyStreams T datas pars props) (ho : outs.size = c.k)
    (hn : ¬ (c.sys = true ∧ avail datas = c.k)) (hen : c.k ≤ (if c.sys then avail datas else 0) + avail pars)
    {t j : Nat} (ht : t < T) (hj : j ∈ picked c.k (c.fragments datas pars))
    (hne : c.seen (c.fragments datas pars) props j t ≠ c.seen (c.fragments (data.map some) (frags.map some)) fprops j t)
    (hnz : ∀ i, i < c.k → word c.w (gt data i) t ≠ 0) (mem : Nat → Nat) (junk : Nat → Nat → Nat) :
    ∃ o H', ∃ out : Nat → List Nat, (R.fecV c.b).decode_streams_vertical datas pars props outs mem junk H = .ok (true, o, H') ∧
      (∀ i, i < c.k → gt o i = (gt outs i).map (fun s => s ++ out i) ∧ (out i).length = T * c.w) ∧
      ∃ i, i < c.k ∧ word c.w (out i) t ≠ word c.w (gt data i) t := by
  obtain ⟨p, n, hP, g, hp, hnl, hroot, hcw, h⟩ := C57_streams_value hc
  obtain ⟨o, H', out, e, q⟩ := h hpkt hr ha ho hn hen mem junk
  obtain ⟨P, P1, P2, P3⟩ := hcw hd he t ht
  exact ⟨o, H', out, e, fun i hi => ⟨(q i hi).1, (q i hi).2.1⟩, Interpolated.wrong hc hp hnl hroot hd he P1 P2 P3
    (y := fun j => c.seen (c.fragments datas pars) props j t) (fun j hj => by rw [← fragments_size ha]; exact picked_lt hj) hj
    (seen_le (any_bytes ha) _ _ _) hne
    (seen_le (encoded_bytes hc hd he) _ _ _) hnz (fun i hi => (q i hi).2.2 t ht)⟩

/-! ## Blocks -/

/-- C57, blocks: whatever the blocks and the properties contain, decoding ends, without undefined behaviour or exception, and leaves the
object fit for use.  It decodes if enough blocks are there, and then overwrites the words of each wanted data block and nothing else; else
nothing is written. -/
theorem C57_blocks (hc : c.Ok) {pkt : Nat} (hpkt : 0 < pkt) {R : RsFntObj} {C : CtxB} {H : Heap} (hr : c.Reachable pkt R C H) {T bytes : Nat}
    (hb : bytes / c.w = T) {datas pars : Array (Option (Array Nat))} {props : Array Properties} {missing wanted : Array Bool}
    (ha : c.AnyBlocks T datas pars props missing) (hw1 : c.k ≤ wanted.size)
    (hw2 : ∀ i, i < c.k → gt wanted i = true → ∃ d, gt datas i = some d ∧ T * c.w ≤ d.size) (mem : Nat → Nat) (junk : Nat → Nat → Nat) :
    ∃ v o H', (R.fecV c.b).decode_blocks_vertical datas pars props missing wanted bytes mem junk H = .ok (v, o, H') ∧ c.Reachable pkt R C H' ∧
      (v = true ↔ (c.sys = true ∧ ∀ i, i < c.k → gt missing i = false) ∨ c.k ≤ missing.toList.count false) ∧ o.size = c.k ∧
      (if v = true ∧ ¬ (c.sys = true ∧ ∀ i, i < c.k → gt missing i = false) then ∀ i, i < c.k →
          if gt wanted i then ∃ (d : Array Nat) (r : List Nat), r.length = T * c.w ∧ (∀ x ∈ r, x < 256) ∧ gt datas i = some d ∧
            gt o i = some (r ++ d.toList.drop (T * c.w)).toArray
          else gt o i = gt datas i
       else o = datas) := by
  obtain ⟨p, n, _, g, r⟩ := FntCode.exists_root hc
  obtain ⟨v, o, H', e, _, q⟩ := (hr.inv hpkt r).decode_blocks_any hpkt hb ha mem junk hw1 hw2
  refine ⟨v, o, H', e, hr.decodeBlocksAny hb ha hw1 hw2 e, ?_⟩
  by_cases h1 : c.sys = true ∧ ∀ i, i < c.k → gt missing i = false
  · rw [if_pos h1] at q
    obtain ⟨rfl, rfl⟩ := q
    exact ⟨by simp only [h1, true_iff]; exact .inl ⟨trivial, h1.2⟩, ha.dsize, by rw [if_neg (fun h => h.2 h1)]⟩
  · rw [if_neg h1] at q
    by_cases h2 : missing.toList.count false < c.k
    · rw [if_pos h2] at q
      obtain ⟨rfl, rfl⟩ := q
      refine ⟨?_, ha.dsize, by rw [if_neg (by simp)]⟩
      constructor
      · intro h; cases h
      · rintro (h | h)
        · exact absurd h h1
        · omega
    · rw [if_neg h2] at q
      obtain ⟨rfl, q1, _, q2⟩ := q
      refine ⟨⟨fun _ => .inr (by omega), fun _ => rfl⟩, q1, ?_⟩
      rw [if_pos ⟨rfl, h1⟩]
      intro i hi
      rw [q2 i hi]
      by_cases hwi : gt wanted i = true
      · rw [if_pos hwi, if_pos hwi]
        obtain ⟨d, hd, _⟩ := hw2 i hi hwi
        rw [hd]
        exact ⟨d, _, flat_length _ _ _, flat_bytes _ _ _, rfl, rfl⟩
      · rw [if_neg hwi, if_neg hwi]

/-- C57, the values decoded from blocks, as `C57_streams_value` -/
theorem C57_blocks_value (hc : c.Ok) : ∃ (p n : Nat) (_ : Fact p.Prime) (g : ZMod p), p = 2 ^ (8 * c.w) + 1 ∧ c.k + c.m ≤ n ∧ IsPrimitiveRoot g n ∧
    (∀ {data frags : Array (List Nat)} {fprops : Array Properties} {T : Nat}, c.Data data T → c.Encoded data frags fprops →
      ∀ t, t < T → ∃ P : (ZMod p)[X], P.degree < c.k ∧
        (if c.sys then ∀ i, i < c.k → P.eval (g ^ i) = word c.w (gt data i) t else ∀ i, i < c.k → P.coeff i = word c.w (gt data i) t) ∧
        ∀ f, f < c.nOut → P.eval (g ^ (if c.sys then c.k + f else f)) = restored c.w (gt frags f) (gt fprops f) t) ∧
    ∀ {pkt : Nat} {R : RsFntObj} {C : CtxB} {H : Heap}, 0 < pkt → c.Reachable pkt R C H → ∀ {T bytes : Nat}, bytes / c.w = T → ∀
      {datas pars : Array (Option (Array Nat))} {props : Array Properties} {missing wanted : Array Bool}, c.AnyBlocks T datas pars props missing →
      c.k ≤ wanted.size → (∀ i, i < c.k → gt wanted i = true → ∃ d, gt datas i = some d ∧ T * c.w ≤ d.size) →
      ¬ (c.sys = true ∧ ∀ i, i < c.k → gt missing i = false) → c.k ≤ missing.toList.count false →
      ∀ (mem : Nat → Nat) (junk : Nat → Nat → Nat), ∃ o H', ∃ out : Nat → List Nat,
        (R.fecV c.b).decode_blocks_vertical datas pars props missing wanted bytes mem junk H = .ok (true, o, H') ∧
        ∀ i, i < c.k → (gt o i = if gt wanted i then (gt datas i).map (fun d => (out i ++ d.toList.drop (T * c.w)).toArray) else gt datas i) ∧
          (out i).length = T * c.w ∧
          ∀ t, t < T → Interpolated c g (picked c.k (c.blockFragments T datas pars missing))
            (fun j => c.seen (c.blockFragments T datas pars missing) props j t) i (word c.w (out i) t) := by
  obtain ⟨p, n, hp, g, r⟩ := FntCode.exists_root hc
  refine ⟨p, n, hp, g, r.ne, r.len, r.root, fun hd he t ht => root_codeword r hd he ht, ?_⟩
  intro pkt R C H hpkt hr T bytes hb datas pars props missing wanted ha hw1 hw2 hn hen mem junk
  obtain ⟨v, o, H', e, _, q⟩ := (hr.inv hpkt r).decode_blocks_any hpkt hb ha mem junk hw1 hw2
  rw [if_neg hn, if_neg (by omega)] at q
  obtain ⟨rfl, q1, hv, q2⟩ := q
  refine ⟨o, H', _, e, fun i hi => ⟨q2 i hi, flat_length _ _ _, fun t ht => ?_⟩⟩
  unfold FntCode.decoded
  rw [word_flat ht]
  exact interpolated_ival r hv (fun j => c.seen (c.blockFragments T datas pars missing) props j t) i

/-- C57, what is not corrupt is recovered, blocks -/
theorem C57_blocks_recover (hc : c.Ok) {data frags : Array (List Nat)} {fprops : Array Properties} {T : Nat} (hd : c.Data data T)
    (he : c.Encoded data frags fprops) {pkt : Nat} (hpkt : 0 < pkt) {R : RsFntObj} {C : CtxB} {H : Heap} (hr : c.Reachable pkt R C H)
    {bytes : Nat} (hb : bytes / c.w = T) {datas pars : Array (Option (Array Nat))} {props : Array Properties} {missing wanted : Array Bool}
    (ha : c.AnyBlocks T datas pars props missing) (hw1 : c.k ≤ wanted.size)
    (hw2 : ∀ i, i < c.k → gt wanted i = true → ∃ d, gt datas i = some d ∧ T * c.w ≤ d.size)
    (hn : ¬ (c.sys = true ∧ ∀ i, i < c.k → gt missing i = false)) (hen : c.k ≤ missing.toList.count false)
    (mem : Nat → Nat) (junk : Nat → Nat → Nat) :
    ∃ o H', ∃ out : Nat → List Nat, (R.fecV c.b).decode_blocks_vertical datas pars props missing wanted bytes mem junk H = .ok (true, o, H') ∧
      (∀ i, i < c.k → (gt o i = if gt wanted i then (gt datas i).map (fun d => (out i ++ d.toList.drop (T * c.w)).toArray) else gt datas i) ∧
        (out i).length = T * c.w) ∧
      ∀ t, t < T → (∀ j ∈ picked c.k (c.blockFragments T datas pars missing), c.seen (c.blockFragments T datas pars missing) props j t =
          c.seen (c.fragments (data.map some) (frags.map some)) fprops j t) →
        ∀ i, i < c.k → word c.w (out i) t = word c.w (gt data i) t := by
  obtain ⟨p, n, hP, g, hp, hnl, hroot, hcw, h⟩ := C57_blocks_value hc
  obtain ⟨o, H', out, e, q⟩ := h hpkt hr hb ha hw1 hw2 hn hen mem junk
  refine ⟨o, H', out, e, fun i hi => ⟨(q i hi).1, (q i hi).2.1⟩, fun t ht hs i hi => ?_⟩
  obtain ⟨P, P1, P2, P3⟩ := hcw hd he t ht
  refine ((q i hi).2.2 t ht).recovers hc hp hd he P1 P2 P3 (fun j hj => ?_) hs hi
  have := picked_lt hj
  unfold FntCode.blockFragments at this
  rw [Array.size_ofFn, ha.msize] at this
  unfold FntCode.nOut at this ⊢
  split <;> simp_all

/-! ## The hypotheses are met -/

/-- two data streams and a coding stream with arbitrary bytes, and properties out of order, repeated, with a location out of range and an unknown marker -/
example : code1.AnyStreams 4 #[some [7, 7, 7, 7], none, some [255, 0, 255, 0]] #[some [1, 1, 1, 1], none]
      #[⟨[(3, 1), (99, 1), (0, 1), (3, 1), (2, 5)]⟩, ⟨[(2 ^ 60, 1)]⟩] ∧
    ¬ (code1.sys = true ∧ avail #[some [7, 7, 7, 7], none, some [255, 0, 255, 0]] = code1.k) ∧
    code1.k ≤ avail #[some [7, 7, 7, 7], none, some [255, 0, 255, 0]] + avail #[some [1, 1, 1, 1], none] := by
  refine ⟨⟨fun _ => rfl, rfl, rfl, ?_, ?_⟩, by decide, by decide⟩
  · intro _ i s hi h
    have : i = 0 ∨ i = 1 ∨ i = 2 := by change i < 3 at hi; omega
    rcases this with rfl | rfl | rfl
    · cases h; decide
    · cases h
    · cases h; decide
  · intro i s hi h
    have : i = 0 ∨ i = 1 := by change i < 2 at hi; omega
    rcases this with rfl | rfl
    · cases h; decide
    · cases h

/-- the same as blocks -/
example : code1.AnyBlocks 4 #[some #[7, 7, 7, 7], some #[0, 0, 0, 0, 9], some #[255, 0, 255, 0]] #[some #[1, 1, 1, 1], none]
      #[⟨[(3, 1), (99, 1), (0, 1), (3, 1), (2, 5)]⟩, ⟨[(2 ^ 60, 1)]⟩] #[false, true, false, false, true] ∧
    code1.k ≤ #[false, true, false, false, true].toList.count false := by
  refine ⟨⟨rfl, rfl, rfl, rfl, ?_, ?_⟩, by decide⟩
  · intro _ i hi h
    have : i = 0 ∨ i = 1 ∨ i = 2 := by change i < 3 at hi; omega
    rcases this with rfl | rfl | rfl
    · exact ⟨_, rfl, by decide, by decide⟩
    · cases h
    · exact ⟨_, rfl, by decide, by decide⟩
  · intro i hi h
    have : i = 0 ∨ i = 1 := by change i < 2 at hi; omega
    rcases this with rfl | rfl
    · exact ⟨_, rfl, by decide, by decide⟩
    · cases h

/-- the first words of fragments may be intact and the others not: the condition of `C57_streams_recover` at location 0 for data streams 0 and 2 -/
example (frags : Array (List Nat)) (fprops : Array Properties) (j : Nat) (h : j = 0 ∨ j = 2) :
    code1.seen (code1.fragments #[some [1, 7, 7, 7], none, some [9, 0, 255, 0]] #[some [1, 1, 1, 1], none]) fprops j 0 =
      code1.seen (code1.fragments (data1.map some) (frags.map some)) fprops j 0 := by
  have hj : j < 3 := by omega
  unfold FntCode.seen
  rw [if_neg (by simp [code1]; omega), if_neg (by simp [code1]; omega)]
  unfold FntCode.fragments
  simp only [code1, if_true]
  rw [gt_append, gt_append, if_pos (by simp; omega), if_pos (by simp [data1]; omega)]
  rcases h with rfl | rfl <;> decide +kernel

/-- and at location 1 data stream 0, which is used, does not have the symbol of the encoding, while no word of `data1` is zero (`C57_streams_wrong`) -/
example (frags : Array (List Nat)) (fprops : Array Properties) :
    0 ∈ picked code1.k (code1.fragments #[some [1, 7, 7, 7], none, some [9, 0, 255, 0]] #[some [1, 1, 1, 1], none]) ∧
    code1.seen (code1.fragments #[some [1, 7, 7, 7], none, some [9, 0, 255, 0]] #[some [1, 1, 1, 1], none]) fprops 0 1 ≠
      code1.seen (code1.fragments (data1.map some) (frags.map some)) fprops 0 1 ∧ ∀ i, i < code1.k → word code1.w (gt data1 i) 1 ≠ 0 := by
  refine ⟨by decide +kernel, ?_, by decide +kernel⟩
  unfold FntCode.seen
  rw [if_neg (by simp [code1]), if_neg (by simp [code1])]
  unfold FntCode.fragments
  simp only [code1, if_true]
  rw [gt_append, gt_append, if_pos (by simp), if_pos (by simp [data1])]
  decide +kernel

end Quad.Props
