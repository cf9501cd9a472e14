import Verif.Lemmas.FecFnt
import Verif.Lemmas.FecSelect

/-!
The FNT code meets `Fec.HSpec`.
-/

namespace Quad
open Finset Polynomial RingModN

theorem and_two_pow_of_le {v e : Nat} (h : v ≤ 2 ^ e) : (v &&& 2 ^ e ≠ 0) ↔ v = 2 ^ e := by
  rcases Nat.lt_or_ge v (2 ^ e) with hlt | hge
  · have h0 : v &&& 2 ^ e = 0 := by
      apply Nat.eq_of_testBit_eq
      intro i
      rw [Nat.testBit_and, Nat.testBit_two_pow, Nat.zero_testBit]
      by_cases h : e = i
      · subst h; rw [Nat.testBit_lt_two_pow hlt]; rfl
      · simp [h]
    constructor
    · intro h; exact absurd h0 h
    · omega
  · have : v = 2 ^ e := by omega
    subst this
    rw [Nat.and_self]
    simp

/-- what `decode_prepare` does: marked words are restored, the indices advance -/
theorem FecBase.decode_prepare_spec {B : FecBase} {C : Ctx} {props : Array Properties} {off : Nat} {words : Array Nat}
    {N : Nat} (hids : ValidIds B.n_data N C.fragments_ids) (hp : N ≤ props.size) (hpi : N ≤ C.props_indices.size)
    (hw : B.n_data ≤ words.size)
    (hm : ∀ i, i < B.n_data → (gt props (gt C.fragments_ids i)).is_marked (gt C.props_indices (gt C.fragments_ids i)) off = true →
      (gt props (gt C.fragments_ids i)).marker (gt C.props_indices (gt C.fragments_ids i)) = OOR_MARK) :
    ∃ pi ws, B.decode_prepare C props off words = .ok ({ C with props_indices := pi }, ws) ∧
      pi.size = C.props_indices.size ∧ ws.size = words.size ∧
      ∀ i, i < B.n_data →
        gt ws i = (if (gt props (gt C.fragments_ids i)).is_marked (gt C.props_indices (gt C.fragments_ids i)) off
          then B.F.card - 1 else gt words i) ∧
        gt pi (gt C.fragments_ids i) = gt C.props_indices (gt C.fragments_ids i) +
          (if (gt props (gt C.fragments_ids i)).is_marked (gt C.props_indices (gt C.fragments_ids i)) off then 1 else 0) := by
  obtain ⟨s, e, pi, ws, hs, h1, h2, h3, _⟩ := forN_inv (n := B.n_data) (s := (C, words)) (f := fun i s => do
      let j ← rd s.1.fragments_ids i
      let P ← rd props j
      let idx ← rd s.1.props_indices j
      if P.is_marked idx off then do
        let words ← if P.marker idx = OOR_MARK then wr s.2 i (B.F.card - 1) else pure s.2
        let pi ← wr s.1.props_indices j (idx + 1)
        pure ({ s.1 with props_indices := pi }, words)
      else pure s)
    (I := fun t (s : Ctx × Array Nat) => ∃ pi ws, s = ({ C with props_indices := pi }, ws) ∧
      pi.size = C.props_indices.size ∧ ws.size = words.size ∧
      (∀ i, i < t →
        gt ws i = (if (gt props (gt C.fragments_ids i)).is_marked (gt C.props_indices (gt C.fragments_ids i)) off
          then B.F.card - 1 else gt words i) ∧
        gt pi (gt C.fragments_ids i) = gt C.props_indices (gt C.fragments_ids i) +
          (if (gt props (gt C.fragments_ids i)).is_marked (gt C.props_indices (gt C.fragments_ids i)) off then 1 else 0)) ∧
      (∀ i, t ≤ i → i < B.n_data → gt ws i = gt words i ∧ gt pi (gt C.fragments_ids i) = gt C.props_indices (gt C.fragments_ids i)))
    ⟨C.props_indices, words, rfl, rfl, rfl, by simp, by simp⟩ (by
      rintro t _ ht ⟨pi, ws, rfl, i1, i2, i3, i4⟩
      have hl := hids.lt t ht
      simp only
      rw [rd_gt (a := C.fragments_ids) (by rw [hids.size]; omega), ok_bind, rd_gt (a := props) (by omega), ok_bind,
        rd_gt (a := pi) (by omega), ok_bind, (i4 t le_rfl ht).2]
      by_cases hmk : (gt props (gt C.fragments_ids t)).is_marked (gt C.props_indices (gt C.fragments_ids t)) off = true
      · rw [if_pos hmk, if_pos (hm t ht hmk), wr_ok (by omega), ok_bind, wr_ok (by omega), ok_bind]
        refine ⟨_, rfl, _, _, rfl, by simp [i1], by simp [i2], ?_, ?_⟩
        · intro i hi
          rw [gt_set (by omega), gt_set (by omega)]
          by_cases h : i = t
          · subst h; rw [if_pos rfl, if_pos rfl, if_pos hmk, if_pos hmk]; exact ⟨rfl, rfl⟩
          · rw [if_neg h, if_neg (fun he => h (hids.inj i t (by omega) ht he))]
            exact i3 i (by omega)
        · intro i hi hib
          rw [gt_set (by omega), gt_set (by omega), if_neg (by omega),
            if_neg (fun he => by have := hids.inj i t hib ht he; omega)]
          exact i4 i (by omega) hib
      · rw [if_neg hmk]
        refine ⟨_, rfl, pi, ws, rfl, i1, i2, ?_, fun i hi hib => i4 i (by omega) hib⟩
        intro i hi
        by_cases h : i = t
        · subst h; rw [if_neg hmk, if_neg hmk]; exact i4 i le_rfl ht
        · exact i3 i (by omega))
  exact ⟨pi, ws, by rw [← hs]; exact e, h1, h2, h3⟩

/-- what `init_context_dec` does -/
theorem FecBase.init_context_dec_spec {B : FecBase} {ι K : Type} [Field K] [Nonempty ι] {S : ι → B.F.Sim K} {n len_2k : Nat}
    {w w2 : ι → K} {okLen : Nat → Prop} (E : DecEnv S B.fft B.fft_2k B.n_data n len_2k w w2 okLen) (hn : B.n = n)
    {ids : Array Nat} {props : Array Properties} (mem : Nat → Nat) (hids : ValidIds B.n_data n ids)
    (hrs : B.r_powers.size = n)
    (hr : ∀ l i, i < n → (S l).V (gt B.r_powers i) ∧ (S l).φ (gt B.r_powers i) = w l ^ i) :
    ∃ C, B.init_context_dec ids props mem = .ok (C, props.map Properties.sort) ∧
      C.props_indices = Array.replicate props.size 0 ∧ ∀ l, C.Good (S l) B.n_data n len_2k (w l) (w2 l) ids := by
  obtain ⟨vx, e, h1, h2⟩ := forN_inv (n := B.n_data) (s := fresh mem B.n_data) (f := fun i vx => do
      let j ← rd ids i
      let x ← rd B.r_powers j
      wr vx i x)
    (I := fun t (vx : Array Nat) => vx.size = B.n_data ∧ ∀ i, i < t → gt vx i = gt B.r_powers (gt ids i))
    ⟨by simp, by simp⟩ (by
      rintro t vx ht ⟨i1, i2⟩
      have := hids.lt t ht
      refine ⟨_, by rw [rd_gt (a := ids) (by rw [hids.size]; omega), ok_bind, rd_gt (a := B.r_powers) (by omega), ok_bind,
        wr_ok (by omega)], by simp [i1], fun i hi => ?_⟩
      rw [gt_set (by omega)]
      by_cases h : i = t
      · subst h; rw [if_pos rfl]
      · rw [if_neg h]; exact i2 i (by omega))
  obtain ⟨C, eC, hC1, hC2⟩ := Ctx.mk'_spec E (ids := ids) (vx := vx) (props := props) mem hids.size hids.lt
    (fun i hi j hj he => hids.inj i j (by simpa using hi) (by simpa using hj) he) h1
    (fun l i hi => by rw [h2 i hi]; exact hr l _ (hids.lt i hi))
  refine ⟨C, ?_, hC1, hC2⟩
  unfold init_context_dec
  rw [e, ok_bind, hn]
  exact eC

theorem polyOf_degree_lt {F : GF} {K : Type} [Field K] (S : F.Sim K) (a : Array Nat) : (polyOf S a).degree < a.size := by
  rw [degree_lt_iff_coeff_zero]
  intro m hm
  rw [polyOf_coeff, gt_oob hm, S.zero.2]

namespace RsFnt

variable {p : Nat} [Fact p.Prime]

/-- symbol `f` of the codeword of `a` -/
noncomputable def sym {F : GF} (S : F.Sim (ZMod p)) (g : ZMod p) (a : Array Nat) (f : Nat) : Nat :=
  ((polyOf S a).eval (g ^ f)).val

/-- what is stored of it -/
noncomputable def stored {F : GF} (S : F.Sim (ZMod p)) (g : ZMod p) (e : Nat) (a : Array Nat) (f : Nat) : Nat :=
  if sym S g a f = 2 ^ e then 0 else sym S g a f

/-- its mark -/
noncomputable def markOf {F : GF} (S : F.Sim (ZMod p)) (g : ZMod p) (e : Nat) (a : Array Nat) (f : Nat) : Option Nat :=
  if sym S g a f = 2 ^ e then some OOR_MARK else none

theorem post_process_spec {B : FecBase} {e off : Nat} (hc : B.F.card = 2 ^ e + 1) {output : Array Nat} {props : Array Properties}
    (h1 : B.n_outputs ≤ output.size) (h2 : B.n_outputs ≤ props.size) (hv : ∀ f, f < B.n_outputs → gt output f ≤ 2 ^ e) :
    ∃ out' props', encode_post_process B output props off = .ok (out', props') ∧ out'.size = output.size ∧
      props'.size = props.size ∧ ∀ f, f < B.n_outputs →
        gt out' f = (if gt output f = 2 ^ e then 0 else gt output f) ∧
        gt props' f = (gt props f).addMark off (if gt output f = 2 ^ e then some OOR_MARK else none) := by
  have hth : B.F.card - 1 = 2 ^ e := by rw [hc]; exact Nat.add_sub_cancel _ _
  unfold encode_post_process
  simp only [hth]
  obtain ⟨s, e', i1, i2, i3, _⟩ := forN_inv (n := B.n_outputs) (s := (output, props)) (f := fun i s => do
      let v ← rd s.1 i
      if v &&& 2 ^ e ≠ 0 then do
        let P ← rd s.2 i
        let props ← wr s.2 i (P.add off OOR_MARK)
        let output ← wr s.1 i 0
        pure (output, props)
      else pure s)
    (I := fun t (s : Array Nat × Array Properties) => s.1.size = output.size ∧ s.2.size = props.size ∧
      (∀ f, f < t → gt s.1 f = (if gt output f = 2 ^ e then 0 else gt output f) ∧
        gt s.2 f = (gt props f).addMark off (if gt output f = 2 ^ e then some OOR_MARK else none)) ∧
      (∀ f, t ≤ f → gt s.1 f = gt output f ∧ gt s.2 f = gt props f))
    ⟨rfl, rfl, by simp, by simp⟩ (by
      rintro t ⟨o, P⟩ ht ⟨i1, i2, i3, i4⟩
      simp only at i1 i2 i3 i4 ⊢
      rw [rd_gt (a := o) (by omega), ok_bind, (i4 t le_rfl).1]
      by_cases hm : gt output t = 2 ^ e
      · rw [if_pos ((and_two_pow_of_le (hv t ht)).mpr hm), rd_gt (a := P) (by omega), ok_bind, wr_ok (by omega), ok_bind,
          wr_ok (by omega), ok_bind]
        refine ⟨_, rfl, by simp [i1], by simp [i2], ?_, ?_⟩
        · intro f hf
          simp only
          rw [gt_set (by omega), gt_set (by omega)]
          by_cases h : f = t
          · subst h; rw [if_pos rfl, if_pos rfl, if_pos hm, if_pos hm, (i4 f le_rfl).2]; exact ⟨rfl, rfl⟩
          · rw [if_neg h, if_neg h]; exact i3 f (by omega)
        · intro f hf
          simp only
          rw [gt_set (by omega), gt_set (by omega), if_neg (by omega), if_neg (by omega)]
          exact i4 f (by omega)
      · rw [if_neg (fun h => hm ((and_two_pow_of_le (hv t ht)).mp h))]
        refine ⟨_, rfl, i1, i2, ?_, fun f hf => i4 f (by omega)⟩
        intro f hf
        by_cases h : f = t
        · subst h; rw [if_neg hm, if_neg hm]; exact i4 f le_rfl
        · exact i3 f (by omega))
  exact ⟨s.1, s.2, e', i1, i2, i3⟩

variable {B : FecBase} {e k m : Nat} {S : B.F.Sim (ZMod p)} {n len_2k : Nat} {g g2 : ZMod p} {okLen : Nat → Prop}

theorem sym_le (G : Good B p e k m S n len_2k g g2 okLen) (a : Array Nat) (f : Nat) : sym S g a f ≤ 2 ^ e := by
  have := ZMod.val_lt ((polyOf S a).eval (g ^ f))
  have := G.hp
  unfold sym; omega

theorem hspec (G : Good B p e k m S n len_2k g g2 okLen) (hsys : B.sys = false) (hw : WordSize B.word_size) :
    (fec B).HSpec (stored S g e) (markOf S g e) := by
  have hk := G.env.kpos
  have hkn := G.env.kn
  have hnout : B.n_outputs = k + m := by rw [G.n_outputs, hsys]; rfl
  have hle := G.le
  have hpow : 256 ^ B.word_size = 2 ^ e := by rw [G.he, two_pow_8]
  have hp := G.hp
  have hsymV : ∀ v a f, v < p → ((v : Nat) : ZMod p) = (polyOf S a).eval (g ^ f) → v = sym S g a f := by
    intro v a f hv h
    unfold sym
    rw [← h, ZMod.val_natCast_of_lt hv]
  have hsymφ : ∀ a f, S.φ (sym S g a f) = (polyOf S a).eval (g ^ f) := by
    intro a f
    rw [G.φ]; unfold sym; rw [ZMod.natCast_zmod_val]
  refine ⟨hw, by show 0 < B.n_data; rw [G.n_data]; exact hk, ?_, ?_, ?_, ?_, ?_, ?_⟩
  · show B.code_len = B.n_data + B.n_parities
    rw [G.code_len, G.n_data, G.n_parities]
  · show B.n_outputs = if B.sys then B.n_parities else B.code_len
    rw [hsys, hnout, G.code_len]; rfl
  · show B.n_outputs ≤ if B.sys then B.n_parities else B.n
    rw [hsys, hnout, G.hn]; exact hle
  · intro a f _ _
    show stored S g e a f < 256 ^ B.word_size
    rw [hpow]
    unfold stored
    have := sym_le G a f
    split
    · positivity
    · omega
  · intro out props off a h1 h2 h3
    change out.size = (if B.sys then B.n_parities else B.n) at h1
    rw [hsys, if_neg (by simp), G.hn] at h1
    change props.size = B.n_outputs at h2
    change IsRow B.word_size B.n_data a at h3
    obtain ⟨h3s, h3v⟩ := h3
    rw [G.n_data] at h3s h3v
    obtain ⟨r, er, sr, hr⟩ := (G.env.fft ()).fft_eval (out := out) (input := a) h1 (by rw [h3s]; exact G.okk)
      (fun j hj => (G.V _).mpr (by have := h3v j (by omega); omega))
    have hr' : ∀ f, f < n → gt r f = sym S g a f := by
      intro f hf
      obtain ⟨q1, q2⟩ := hr f hf
      rw [G.φ] at q2
      exact hsymV _ _ _ ((G.V _).mp q1) q2
    obtain ⟨o', p', ee, s1, s2, hh⟩ := post_process_spec (B := B) (e := e) (off := off) (output := r) (props := props)
      (by rw [G.card, hp]) (by omega) h2.ge (fun f hf => by rw [hr' f (by omega)]; exact sym_le G a f)
    refine ⟨o', p', ?_, ?_, by show p'.size = B.n_outputs; omega, ?_⟩
    · show encode B out props off a = _
      unfold encode
      rw [er, ok_bind, ee]
    · show o'.size = if B.sys then B.n_parities else B.n
      rw [hsys, if_neg (by simp), G.hn]; omega
    · intro f hf
      have hf' : f < B.n_outputs := hf
      have := hh f hf'
      rw [hr' f (by omega)] at this
      exact this
  · intro rows T ids props mem hrows hids _ h3 hprops
    change ∀ t, t < T → IsRow B.word_size B.n_data (rows t) at hrows
    change ValidIds B.n_data (if B.sys then B.n_data + B.n_outputs else B.n_outputs) ids at hids
    rw [hsys, if_neg (by simp)] at hids
    change props.size = B.n_outputs at h3
    have hids' : ValidIds B.n_data n ids := ⟨hids.size, hids.inj, fun i hi => by have := hids.lt i hi; omega⟩
    have hprops' : ∀ i, i < B.n_data → gt props (gt ids i) = ⟨marksOf (fun t => markOf S g e (rows t) (gt ids i)) T⟩ := by
      intro i hi
      exact hprops i (gt ids i) hi (hids.lt i hi) (by show gt ids i = if B.sys then _ else _; rw [hsys]; rfl)
    have env := G.env
    rw [← G.n_data] at env
    obtain ⟨C, eC, hC1, hC2⟩ := FecBase.init_context_dec_spec (B := B) env G.hn (ids := ids) (props := props) mem hids'
      G.rpSize (fun _ i hi => by
        refine ⟨(G.V _).mpr (G.rp i hi).1, ?_⟩
        rw [G.φ]; exact (G.rp i hi).2)
    refine ⟨fun C t => C.Good S B.n_data n len_2k g g2 ids ∧ C.props_indices.size = B.n_outputs ∧ ∀ i, i < B.n_data →
      gt C.props_indices (gt ids i) = (marksOf (fun t => markOf S g e (rows t) (gt ids i)) t).length,
      C, props.map Properties.sort, eC, ⟨hC2 (), by rw [hC1]; simp [h3], ?_⟩, ?_⟩
    · intro i hi
      rw [hC1, gt_replicate (by rw [h3]; exact hids.lt i hi)]; rfl
    · rintro t C out words ht ⟨c1, c2, c3⟩ hout hws hwords
      change out.size = B.n_data at hout
      replace hws : B.n_data ≤ words.size := by
        rw [hws]
        show B.n_data ≤ if B.sys then B.n_data else B.code_len
        rw [hsys, G.code_len, G.n_data]; simp
      have hwords' : ∀ i, i < B.n_data → gt words i = stored S g e (rows t) (gt ids i) := by
        intro i hi
        rw [hwords i hi]
        show fragVal B.sys B.n_data _ _ _ = _
        unfold fragVal; rw [hsys]; rfl
      have hsort : ∀ i, i < B.n_data → gt (props.map Properties.sort) (gt ids i)
          = ⟨marksOf (fun t => markOf S g e (rows t) (gt ids i)) T⟩ := by
        intro i hi
        have hl : gt ids i < props.size := by rw [h3]; exact hids.lt i hi
        have h5 := hprops' i hi
        rw [gt_eq hl] at h5
        rw [gt_eq (by simpa using hl), Array.getElem_map, h5, sort_marksOf]
      have hat : ∀ i, i < B.n_data → _ := fun i hi => marksOf_at (f := fun t => markOf S g e (rows t) (gt ids i)) ht
        (P := gt (props.map Properties.sort) (gt ids i)) (by rw [hsort i hi])
      have hmk : ∀ i, i < B.n_data → ((gt (props.map Properties.sort) (gt ids i)).is_marked (gt C.props_indices (gt ids i)) t = true
          ↔ sym S g (rows t) (gt ids i) = 2 ^ e) := by
        intro i hi
        rw [c3 i hi]
        by_cases hs : sym S g (rows t) (gt ids i) = 2 ^ e
        · have := ((hat i hi).1 OOR_MARK (by simp [markOf, hs])).1
          exact ⟨fun _ => hs, fun _ => this⟩
        · have := (hat i hi).2 (by simp [markOf, hs])
          rw [this]; simp [hs]
      have hidsC : C.fragments_ids = ids := c1.idsEq
      obtain ⟨pi, ws, ep, p1, p2, p3⟩ := FecBase.decode_prepare_spec (B := B) (C := C) (props := props.map Properties.sort)
        (off := t) (words := words) (N := B.n_outputs) (by rw [hidsC]; exact hids) (by simp [h3]) (by omega) hws (by
          intro i hi h
          rw [hidsC] at h ⊢
          have hs := (hmk i hi).mp h
          rw [c3 i hi]
          exact ((hat i hi).1 OOR_MARK (by simp [markOf, hs])).2)
      rw [hidsC] at p3
      have hws' : ∀ i, i < B.n_data → gt ws i = sym S g (rows t) (gt ids i) := by
        intro i hi
        rw [(p3 i hi).1, hwords' i hi]
        by_cases hs : sym S g (rows t) (gt ids i) = 2 ^ e
        · rw [if_pos ((hmk i hi).mpr hs), G.card, hs]; omega
        · rw [if_neg (fun h => hs ((hmk i hi).mp h))]
          unfold stored; rw [if_neg hs]
      have c1' : ({ C with props_indices := pi } : Ctx).Good S B.n_data n len_2k g g2 ids :=
        ⟨c1.len, c1.idsEq, c1.invSize, c1.inv, c1.ASize, c1.A, c1.v1n, c1.v2n, c1.v12, c1.v22⟩
      obtain ⟨C', r, er, sr, pr, gr, vr, hr⟩ := FecBase.decode_apply_spec (B := B) (S := S) env.kpos env.kn env.k2 rfl
        (env.fft ()) (env.fft_2k ()) c1' hids.size hids'.lt
        (fun i hi j hj he => hids.inj i j (by simpa using hi) (by simpa using hj) he) (output := out) (words := ws) hout
        (by omega) (fun i hi => by
          rw [hws' i hi, G.V]
          have := sym_le G (rows t) (gt ids i)
          omega)
      refine ⟨C', r, ?_, sr, ⟨gr, ?_, ?_⟩, ?_⟩
      · show B.decode C out (props.map Properties.sort) t words = _
        unfold FecBase.decode
        rw [ep, ok_bind]
        exact er
      · rw [pr]; show pi.size = _; omega
      · intro i hi
        rw [pr]
        show gt pi (gt ids i) = _
        rw [(p3 i hi).2, c3 i hi, marksOf_succ, List.length_append]
        congr 1
        by_cases hs : sym S g (rows t) (gt ids i) = 2 ^ e
        · rw [← c3 i hi, if_pos ((hmk i hi).mpr hs)]; simp [markOf, hs]
        · rw [← c3 i hi, if_neg (fun h => hs ((hmk i hi).mp h))]; simp [markOf, hs]
      · intro i hi
        obtain ⟨q1, q2⟩ := hrows t ht
        have h6 := hr (polyOf S (rows t)) (by
            rw [← q1]; exact polyOf_degree_lt S (rows t)) (fun i hi => by
            rw [hws' i hi, hsymφ]) i hi
        rw [polyOf_coeff, G.φ, G.φ] at h6
        have h7 := (G.V _).mp (vr i hi)
        have h8 := q2 i hi
        rw [← ZMod.val_natCast_of_lt h7, h6, ZMod.val_natCast_of_lt (by omega)]

end RsFnt
end Quad
