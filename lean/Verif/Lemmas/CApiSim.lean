import Verif.Model.CApi
import Verif.Lemmas.FntCode

/-!
# The functions on pointers do what the functions on separate blocks do
-/

namespace Quad.CApi

/-- if one loop succeeds, a loop that follows it step by step succeeds -/
theorem forN_sim {σ τ : Type} {n : Nat} {f : Nat → σ → Res σ} {g : Nat → τ → Res τ} (Rel : Nat → σ → τ → Prop) {s s' : σ} {t : τ}
    (h : forN n s f = .ok s') (h0 : Rel 0 s t)
    (hs : ∀ k s t s'', k < n → Rel k s t → f k s = .ok s'' → ∃ t'', g k t = .ok t'' ∧ Rel (k + 1) s'' t'') :
    ∃ t', forN n t g = .ok t' ∧ Rel n s' t' := by
  induction n generalizing s' with
  | zero => simp only [forN] at h; cases h; exact ⟨t, rfl, h0⟩
  | succ n ih =>
    rw [forN] at h
    cases hn : forN n s f with
    | error e => rw [hn] at h; cases h
    | ok s1 =>
      rw [hn, ok_bind] at h
      obtain ⟨t1, e1, r1⟩ := ih hn (fun k s t s'' hk => hs k s t s'' (by omega))
      obtain ⟨t2, e2, r2⟩ := hs n s1 t1 s' (by omega) r1 h
      exact ⟨t2, by rw [forN, e1, ok_bind, e2], r2⟩

/-- the memory at pointer `p` holds `v`, from byte `lo` on -/
def At (lo : Nat) (U : Array (Array Nat)) (p : Ptr) (v : Option (Array Nat)) : Prop :=
  ∀ d, v = some d → ∃ q, p = some q ∧ q.1 < U.size ∧ (gt U q.1).size = q.2 + d.size ∧
    ∀ x, lo ≤ x → gt (gt U q.1) (q.2 + x) = gt d x

theorem At.mono {lo hi : Nat} {U : Array (Array Nat)} {p : Ptr} {v : Option (Array Nat)} (h : At lo U p v) (hle : lo ≤ hi) : At hi U p v := by
  intro d hd
  obtain ⟨q, h1, h2, h3, h4⟩ := h d hd
  exact ⟨q, h1, h2, h3, fun x hx => h4 x (by omega)⟩

theorem gt_store {dst src r : Array Nat} {off len : Nat} (h : storeBytes dst src off len = .ok r) :
    r.size = dst.size ∧ off + len ≤ dst.size ∧ len ≤ src.size ∧
      ∀ x, gt r x = if off ≤ x ∧ x < off + len then gt src (x - off) else gt dst x := by
  unfold storeBytes at h
  split at h
  · rename_i hc
    cases h
    have hsz : (dst.extract 0 off ++ src.extract 0 len ++ dst.extract (off + len) dst.size).size = dst.size := by
      simp; omega
    refine ⟨hsz, hc.1, hc.2, fun x => ?_⟩
    by_cases hx : x < dst.size
    · rw [gt_append, gt_append]
      simp only [Array.size_append, Array.size_extract, Nat.sub_zero]
      rw [min_eq_left (by omega), min_eq_left (by omega)]
      split
      · split
        · rw [gt_extract (by omega) (by omega), if_neg (by omega), Nat.zero_add]
        · rw [gt_extract (by omega) (by omega), if_pos (by omega), Nat.zero_add]
      · rw [gt_extract (by omega) (by omega), if_neg (by omega)]
        congr 1; omega
    · rw [gt_oob (by omega), if_neg (by omega), gt_oob (by omega)]
  · cases h

theorem store_ok {dst src : Array Nat} {off len : Nat} (h1 : off + len ≤ dst.size) (h2 : len ≤ src.size) :
    ∃ r, storeBytes dst src off len = .ok r := by
  unfold storeBytes
  rw [if_pos ⟨h1, h2⟩]
  exact ⟨_, rfl⟩

theorem copy_eq {d s u : Array Nat} {base off len : Nat} (hs : u.size = base + s.size) (hb : ∀ x, off ≤ x → gt u (base + x) = gt s x) :
    copyBytes d u (base + off) len = copyBytes d s off len := by
  unfold copyBytes
  by_cases hc : off + len ≤ s.size ∧ len ≤ d.size
  · rw [if_pos hc, if_pos ⟨by omega, hc.2⟩]
    congr 2
    apply gt_ext
    · simp; omega
    · intro i hi
      have hi' : i < len := by simp at hi; omega
      rw [gt_extract (by omega) (by omega), gt_extract (by omega) (by omega), Nat.add_assoc, hb _ (by omega)]
  · rw [if_neg hc, if_neg (by omega)]

/-- reading through pointers -/
theorem readU_sim {count dst off len : Nat} {idx : Nat → Res Nat} {blocks : Array (Option (Array Nat))} {ptrs : Array Ptr}
    {U wc wc' : Array (Array Nat)} (h : readBlocks count dst idx blocks off len wc = .ok wc') (hsz : ptrs.size = blocks.size)
    (hat : ∀ j, j < blocks.size → At off U (gt ptrs j) (gt blocks j)) :
    readU count dst idx ptrs U off len wc = .ok wc' := by
  obtain ⟨t, e, r⟩ := forN_sim (fun _ s t => s = t) (t := wc) (g := fun i wc => do
    let j ← idx i
    let p ← rd ptrs j
    match p with
    | none => ub
    | some p => do
      let s ← rd U p.1
      let d ← rd wc (dst + i)
      let d ← copyBytes d s (p.2 + off) len
      wr wc (dst + i) d) h rfl (by
    rintro i s t s'' hi rfl hf
    refine ⟨s'', ?_, rfl⟩
    cases hj : idx i with
    | error e => rw [hj] at hf; cases hf
    | ok j =>
      rw [hj, ok_bind] at hf
      rw [ok_bind]
      by_cases hjl : j < blocks.size
      · rw [rd_gt hjl, ok_bind] at hf
        cases hb : gt blocks j with
        | none => rw [hb] at hf; cases hf
        | some d =>
          rw [hb] at hf
          obtain ⟨q, h1, h2, h3, h4⟩ := hat j hjl d hb
          rw [rd_gt (by omega), ok_bind, h1]
          simp only
          rw [rd_gt h2, ok_bind]
          simp only at hf
          simp only [copy_eq h3 h4]
          exact hf
      · simp [rd, hjl] at hf)
  rw [← r] at e
  exact e

/-- no byte changes outside of the ranges `[base + a, base + b)` of the wanted targets -/
def Frame (tp : Array Ptr) (wanted : Array Bool) (n : Nat) (In : Nat → Prop) (U U' : Array (Array Nat)) : Prop :=
  U'.size = U.size ∧ ∀ b, (gt U' b).size = (gt U b).size ∧
    ∀ x, (∀ f base, f < n → gt wanted f = true → gt tp f = some (b, base) → x < base ∨ (base ≤ x ∧ ¬ In (x - base))) → gt (gt U' b) x = gt (gt U b) x

theorem Frame.refl (tp : Array Ptr) (wanted : Array Bool) (n : Nat) (In : Nat → Prop) (U : Array (Array Nat)) : Frame tp wanted n In U U :=
  ⟨rfl, fun _ => ⟨rfl, fun _ _ => rfl⟩⟩

theorem Frame.trans {tp : Array Ptr} {wanted : Array Bool} {n : Nat} {In : Nat → Prop} {U U' U'' : Array (Array Nat)}
    (h : Frame tp wanted n In U U') (h' : Frame tp wanted n In U' U'') : Frame tp wanted n In U U'' := by
  refine ⟨h'.1.trans h.1, fun b => ⟨(h'.2 b).1.trans (h.2 b).1, fun x hx => ((h'.2 b).2 x hx).trans ((h.2 b).2 x hx)⟩⟩

theorem Frame.mono {tp : Array Ptr} {wanted : Array Bool} {n : Nat} {In In' : Nat → Prop} {U U' : Array (Array Nat)}
    (h : Frame tp wanted n In U U') (hi : ∀ x, In x → In' x) : Frame tp wanted n In' U U' := by
  refine ⟨h.1, fun b => ⟨(h.2 b).1, fun x hx => (h.2 b).2 x (fun f base h1 h2 h3 => ?_)⟩⟩
  rcases hx f base h1 h2 h3 with h | h
  · exact .inl h
  · exact .inr ⟨h.1, fun hh => h.2 (hi _ hh)⟩

/-- distinct targets are in distinct blocks -/
def Distinct (tp : Array Ptr) (n : Nat) : Prop :=
  ∀ f f' b base base', f < n → f' < n → gt tp f = some (b, base) → gt tp f' = some (b, base') → f = f'

/-- a source that shares its block with a target is that target -/
def Compatible (sp tp : Array Ptr) (n : Nat) : Prop :=
  ∀ j f b base base', j < sp.size → f < n → gt sp j = some (b, base) → gt tp f = some (b, base') → base = base'

/-- sources keep what is not in the ranges -/
theorem Frame.at {tp sp : Array Ptr} {wanted : Array Bool} {n lo : Nat} {In : Nat → Prop} {U U' : Array (Array Nat)}
    (h : Frame tp wanted n In U U') (hc : Compatible sp tp n) {j : Nat} {v : Option (Array Nat)} (hj : j < sp.size) (ha : At lo U (gt sp j) v)
    (hlo : ∀ x, In x → x < lo) : At lo U' (gt sp j) v := by
  intro d hd
  obtain ⟨⟨b, base⟩, h1, h2, h3, h4⟩ := ha d hd
  refine ⟨(b, base), h1, by rw [h.1]; exact h2, by rw [(h.2 b).1]; exact h3, fun x hx => ?_⟩
  rw [← h4 x hx]
  refine (h.2 b).2 _ (fun f base' hf hw ht => ?_)
  have := hc j f b base base' hj hf h1 ht
  subst this
  exact .inr ⟨by simp, fun hh => by have := hlo _ hh; simp at this; omega⟩

/-- writing through pointers -/
theorem writeU_sim {n off len : Nat} {wanted : Array Bool} {oc : Array (Array Nat)} {blocks blocks' : Array (Option (Array Nat))}
    {ptrs : Array Ptr} {U : Array (Array Nat)} (h : writeBlocks n wanted off len oc blocks = .ok blocks') (hsz : ptrs.size = blocks.size)
    (hn : n = blocks.size) (hdist : Distinct ptrs n) (hat : ∀ j, j < n → At 0 U (gt ptrs j) (gt blocks j)) :
    ∃ U', writeU n wanted off len oc ptrs U = .ok U' ∧ blocks'.size = blocks.size ∧ (∀ j, j < n → At 0 U' (gt ptrs j) (gt blocks' j)) ∧
      Frame ptrs wanted n (fun x => off ≤ x ∧ x < off + len) U U' := by
  obtain ⟨t, e, r1, r2, r3⟩ := forN_sim (fun _ (s : Array (Option (Array Nat))) t => s.size = blocks.size ∧ (∀ j, j < n → At 0 t (gt ptrs j) (gt s j)) ∧
      Frame ptrs wanted n (fun x => off ≤ x ∧ x < off + len) U t) (t := U) (g := fun i U => do
    let wnt ← rd wanted i
    if wnt then do
      let p ← rd ptrs i
      match p with
      | none => ub
      | some p => do
        let d ← rd U p.1
        let s ← rd oc i
        let d ← storeBytes d s (p.2 + off) len
        wr U p.1 d
    else pure U) h ⟨rfl, hat, Frame.refl _ _ _ _ _⟩ (by
    rintro i s t s'' hi ⟨g1, g2, g3⟩ hf
    by_cases hiw : i < wanted.size
    · rw [rd_gt hiw, ok_bind] at hf ⊢
      cases hw : gt wanted i with
      | false =>
        rw [hw] at hf
        simp only [Bool.false_eq_true, if_false] at hf ⊢
        cases hf
        exact ⟨t, rfl, g1, g2, g3⟩
      | true =>
        rw [hw] at hf
        simp only [if_true] at hf ⊢
        rw [rd_gt (by omega), ok_bind] at hf
        cases hb : gt s i with
        | none => rw [hb] at hf; cases hf
        | some d =>
          rw [hb] at hf
          simp only at hf
          obtain ⟨⟨b, base⟩, h1, h2, h3, h4⟩ := g2 i hi d hb
          rw [rd_gt (by omega), ok_bind, h1]
          simp only at h2 h3 h4 ⊢
          rw [rd_gt h2, ok_bind]
          cases ho : rd oc i with
          | error e => rw [ho] at hf; cases hf
          | ok src =>
            rw [ho, ok_bind] at hf
            rw [ok_bind]
            cases hst : storeBytes d src off len with
            | error e => rw [hst] at hf; cases hf
            | ok d' =>
              rw [hst, ok_bind, wr_ok (by omega)] at hf
              cases hf
              obtain ⟨k1, k2, k3, k4⟩ := gt_store hst
              obtain ⟨u', hu⟩ := store_ok (dst := gt t b) (src := src) (off := base + off) (len := len) (by omega) k3
              obtain ⟨m1, m2, m3, m4⟩ := gt_store hu
              rw [hu, ok_bind, wr_ok h2]
              refine ⟨_, rfl, by simpa using g1, fun j hj => ?_, g3.trans ⟨by simp, fun b' => ?_⟩⟩
              · rw [gt_set (by omega)]
                by_cases hji : j = i
                · subst hji
                  rw [if_pos rfl]
                  rintro d1 hd1
                  cases hd1
                  refine ⟨(b, base), h1, by simpa using h2, ?_, fun x _ => ?_⟩
                  · simp only; rw [gt_set h2, if_pos rfl]; omega
                  · simp only; rw [gt_set h2, if_pos rfl, m4, k4]
                    by_cases hx : off ≤ x ∧ x < off + len
                    · rw [if_pos hx, if_pos (by omega)]; congr 1; omega
                    · rw [if_neg hx, if_neg (by omega), h4 x (by omega)]
                · rw [if_neg hji]
                  intro d1 hd1
                  obtain ⟨⟨b1, base1⟩, n1, n2, n3, n4⟩ := g2 j hj d1 hd1
                  have hbb : b1 ≠ b := by
                    rintro rfl
                    exact hji (hdist j i _ _ _ hj hi n1 h1)
                  refine ⟨(b1, base1), n1, by simpa using n2, ?_, fun x hx => ?_⟩
                  · simp only; rw [gt_set h2, if_neg hbb]; exact n3
                  · simp only; rw [gt_set h2, if_neg hbb]; exact n4 x hx
              · rw [gt_set h2]
                by_cases hbb : b' = b
                · subst hbb
                  rw [if_pos rfl]
                  refine ⟨by omega, fun x hx => ?_⟩
                  rw [m4, if_neg]
                  rcases hx i base hi hw h1 with hx | ⟨hx, hx'⟩
                  · omega
                  · omega
                · rw [if_neg hbb]; exact ⟨rfl, fun _ _ => rfl⟩
    · simp [rd, hiw] at hf)
  exact ⟨t, e, r1, r2, r3⟩

variable {E : FecV}

theorem encLoopU_sim {words output : Bufs} {datas : Array (Option (Array Nat))} {wanted : Array Bool} {bs : Nat} {dp tp : Array Ptr}
    (hd : dp.size = datas.size) (hdist : Distinct tp E.base.n_outputs) (hcomp : Compatible dp tp E.base.n_outputs) :
    ∀ {fuel : Nat} {pars pars' : Array (Option (Array Nat))} {off : Nat} {s s' : EncSt} {U : Array (Array Nat)},
      E.encBlockLoop words output datas wanted bs fuel pars off s = .ok (pars', s') → tp.size = pars.size → pars.size = E.base.n_outputs →
      (∀ j, j < datas.size → At (off * E.base.word_size) U (gt dp j) (gt datas j)) → (∀ f, f < E.base.n_outputs → At 0 U (gt tp f) (gt pars f)) →
      ∃ U', encLoopU E words output dp tp wanted bs fuel U off s = .ok (U', s') ∧ pars'.size = pars.size ∧
        (∀ f, f < E.base.n_outputs → At 0 U' (gt tp f) (gt pars' f)) ∧ Frame tp wanted E.base.n_outputs (fun _ => True) U U' := by
  intro fuel
  induction fuel with
  | zero => intro pars pars' off s s' U h; cases h
  | succ fuel ih =>
    intro pars pars' off s s' U h hts hps hsrc htgt
    rw [FecV.encBlockLoop] at h
    rw [encLoopU]
    by_cases ho : off < bs
    · rw [if_pos ho] at h
      rw [if_pos ho]
      simp only at h ⊢
      obtain ⟨wc, hr, h⟩ := bind_ok h
      obtain ⟨s1, hst, h⟩ := bind_ok h
      obtain ⟨u, hsd, h⟩ := bind_ok h
      obtain ⟨pars1, hwr, h⟩ := bind_ok h
      rw [readU_sim hr hd hsrc, ok_bind, hst, ok_bind, hsd, ok_bind]
      obtain ⟨U1, e1, z1, t1, f1⟩ := writeU_sim hwr hts hps.symm hdist htgt
      rw [e1, ok_bind]
      have hmin : min E.base.pkt_size (bs - off) * E.base.word_size ≤ E.base.pkt_size * E.base.word_size :=
        Nat.mul_le_mul_right _ (min_le_left _ _)
      obtain ⟨U2, e2, z2, t2, f2⟩ := ih h (by omega) (by omega) (fun j hj => f1.at hcomp (by omega)
        ((hsrc j hj).mono (Nat.mul_le_mul_right _ (by omega))) (fun x hx => by rw [Nat.add_mul]; omega)) t1
      exact ⟨U2, e2, by omega, t2, (f1.mono (fun _ _ => trivial)).trans f2⟩
    · rw [if_neg ho] at h ⊢
      cases h
      exact ⟨U, rfl, rfl, htgt, Frame.refl _ _ _ _ _⟩

theorem encodeU_sim {enc enc' : CtxB} {datas pars pars' : Array (Option (Array Nat))} {props props' : Array Properties} {wanted : Array Bool}
    {bytes : Nat} {junk : Nat → Nat → Nat} {H H' : Heap} {dp tp : Array Ptr} {U : Array (Array Nat)}
    (h : E.encode_blocks_vertical enc datas pars props wanted bytes junk H = .ok (pars', props', enc', H'))
    (hd : dp.size = datas.size) (ht : tp.size = pars.size) (hdist : Distinct tp E.base.n_outputs) (hcomp : Compatible dp tp E.base.n_outputs)
    (hsrc : ∀ j, j < datas.size → At 0 U (gt dp j) (gt datas j)) (htgt : ∀ f, f < E.base.n_outputs → At 0 U (gt tp f) (gt pars f)) :
    ∃ U', encodeU E enc dp tp props wanted bytes junk U H = .ok (U', props', enc', H') ∧
      (∀ f, f < E.base.n_outputs → At 0 U' (gt tp f) (gt pars' f)) ∧ Frame tp wanted E.base.n_outputs (fun _ => True) U U' := by
  unfold FecV.encode_blocks_vertical at h
  unfold encodeU
  rw [hd, ht]
  by_cases h1 : datas.size = E.base.n_data
  · by_cases h2 : pars.size = E.base.n_outputs
    · by_cases h3 : props.size = E.base.n_outputs
      · simp only [cassert, h1, h2, h3, decide_true, if_true, ok_bind] at h ⊢
        obtain ⟨⟨p1, s1⟩, hl, hr⟩ := bind_ok h
        cases hr
        obtain ⟨U', e1, _, e3, e4⟩ := encLoopU_sim hd hdist hcomp hl (by omega) h2 (fun j hj => (hsrc j hj).mono (by omega)) htgt
        rw [e1, ok_bind]
        exact ⟨U', rfl, e3, e4⟩
      · simp [cassert, h1, h2, h3] at h
    · simp [cassert, h1, h2] at h
  · simp [cassert, h1] at h

theorem decLoopU_sim {words output : Bufs} {ids apar : Array Nat} {nd : Nat} {pars : Array (Option (Array Nat))} {props : Array Properties}
    {wanted : Array Bool} {bs : Nat} {dp tp : Array Ptr} (hp : dp.size = pars.size) (hdist : Distinct tp E.base.n_data)
    (hcomp : Compatible dp tp E.base.n_data) :
    ∀ {fuel : Nat} {datas datas' : Array (Option (Array Nat))} {off : Nat} {s : DecSt} {H' : Heap} {U : Array (Array Nat)},
      E.decBlockLoop words output ids apar nd pars props wanted bs fuel datas off s = .ok (datas', H') → tp.size = datas.size →
      datas.size = E.base.n_data →
      (∀ j, j < pars.size → At (off * E.base.word_size) U (gt dp j) (gt pars j)) → (∀ f, f < E.base.n_data → At 0 U (gt tp f) (gt datas f)) →
      ∃ U', decLoopU E words output ids apar nd tp dp props wanted bs fuel U off s = .ok (U', H') ∧ datas'.size = datas.size ∧
        (∀ f, f < E.base.n_data → At 0 U' (gt tp f) (gt datas' f)) ∧ Frame tp wanted E.base.n_data (fun _ => True) U U' := by
  intro fuel
  induction fuel with
  | zero => intro datas datas' off s H' U h; cases h
  | succ fuel ih =>
    intro datas datas' off s H' U h hts hps hsrc htgt
    rw [FecV.decBlockLoop] at h
    rw [decLoopU]
    by_cases ho : off < bs
    · rw [if_pos ho] at h
      rw [if_pos ho]
      simp only at h ⊢
      obtain ⟨wc0, hr0, h⟩ := bind_ok h
      obtain ⟨wc, hr, h⟩ := bind_ok h
      obtain ⟨s1, hst, h⟩ := bind_ok h
      obtain ⟨pars1, hwr, h⟩ := bind_ok h
      have hr0' : (if E.base.sys then readU nd 0 (fun i => rd ids i) tp U (off * E.base.word_size)
          (min E.base.pkt_size (bs - off) * E.base.word_size) s.words_char else pure s.words_char) = .ok wc0 := by
        split
        · rename_i hs
          rw [if_pos hs] at hr0
          exact readU_sim hr0 hts (fun j hj => (htgt j (by omega)).mono (by omega))
        · rename_i hs
          rw [if_neg hs] at hr0
          exact hr0
      rw [hr0', ok_bind, readU_sim hr hp hsrc, ok_bind, hst, ok_bind]
      obtain ⟨U1, e1, z1, t1, f1⟩ := writeU_sim hwr hts hps.symm hdist htgt
      rw [e1, ok_bind]
      have hmin : min E.base.pkt_size (bs - off) * E.base.word_size ≤ E.base.pkt_size * E.base.word_size :=
        Nat.mul_le_mul_right _ (min_le_left _ _)
      obtain ⟨U2, e2, z2, t2, f2⟩ := ih h (by omega) (by omega) (fun j hj => f1.at hcomp (by omega)
        ((hsrc j hj).mono (Nat.mul_le_mul_right _ (by omega))) (fun x hx => by rw [Nat.add_mul]; omega)) t1
      exact ⟨U2, e2, by omega, t2, (f1.mono (fun _ _ => trivial)).trans f2⟩
    · rw [if_neg ho] at h ⊢
      cases h
      exact ⟨U, rfl, rfl, htgt, Frame.refl _ _ _ _ _⟩

theorem decodeU_sim {datas pars datas' : Array (Option (Array Nat))} {props : Array Properties} {missing wanted : Array Bool}
    {bytes : Nat} {mem : Nat → Nat} {junk : Nat → Nat → Nat} {H H' : Heap} {v : Bool} {dp tp : Array Ptr} {U : Array (Array Nat)}
    (h : E.decode_blocks_vertical datas pars props missing wanted bytes mem junk H = .ok (v, datas', H'))
    (hd : dp.size = pars.size) (ht : tp.size = datas.size) (hds : datas.size = E.base.n_data) (hdist : Distinct tp E.base.n_data)
    (hcomp : Compatible dp tp E.base.n_data)
    (hsrc : ∀ j, j < pars.size → At 0 U (gt dp j) (gt pars j)) (htgt : ∀ f, f < E.base.n_data → At 0 U (gt tp f) (gt datas f)) :
    ∃ U', decodeU E tp dp props missing wanted bytes mem junk U H = .ok (v, U', H') ∧
      (∀ f, f < E.base.n_data → At 0 U' (gt tp f) (gt datas' f)) ∧ Frame tp wanted E.base.n_data (fun _ => True) U U' := by
  unfold FecV.decode_blocks_vertical at h
  unfold decodeU
  rw [hd, ht]
  simp only at h ⊢
  by_cases hs : E.base.sys = true
  on_goal 1 =>
    simp only [hs, if_true] at h ⊢
    obtain ⟨_, h1, h⟩ := bind_ok h
    rw [h1, ok_bind]
  on_goal 2 =>
    simp only [hs] at h ⊢
  all_goals
    obtain ⟨_, h2, h⟩ := bind_ok h
    obtain ⟨_, h3, h⟩ := bind_ok h
    obtain ⟨sel, h4, h⟩ := bind_ok h
    rw [h2, ok_bind, h3, ok_bind, h4, ok_bind]
    cases sel with
    | allData => cases h; exact ⟨U, rfl, htgt, Frame.refl _ _ _ _ _⟩
    | tooFew => cases h; exact ⟨U, rfl, htgt, Frame.refl _ _ _ _ _⟩
    | use ids apar nd =>
      simp only at h ⊢
      obtain ⟨⟨H1, C1, p1⟩, h5, h⟩ := bind_ok h
      rw [h5, ok_bind]
      simp only at h ⊢
      obtain ⟨⟨d1, H2⟩, h6, h⟩ := bind_ok h
      cases h
      obtain ⟨U', e1, _, e3, e4⟩ := decLoopU_sim hd hdist hcomp h6 ht hds (fun j hj => (hsrc j hj).mono (by omega)) htgt
      rw [e1, ok_bind]
      exact ⟨U', rfl, e3, e4⟩

end Quad.CApi
