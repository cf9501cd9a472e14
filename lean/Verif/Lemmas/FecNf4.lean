import Verif.Model.FecNf4
import Verif.Lemmas.NF4Obj
import Verif.Lemmas.FecFftBuild

/-!
The code over packed words: one polynomial code over GF(65537) in each lane.
-/

namespace Quad
open Finset Polynomial Spec NF4

namespace RsNf4

/-- a code object as the constructor builds it -/
structure Good (c : Code) (b lanes : Nat) (simd : Option (Nat × (Nat → Nat))) (k m : Nat) (S : Fin lanes → c.base.F.Sim (ZMod 65537))
    (n len_2k : Nat) (g g2 : ZMod 65537) (okLen : Nat → Prop) : Prop where
  H : IsNf4 c.N b lanes simd
  V : ∀ l a, (S l).V a ↔ Packed lanes a
  φ : ∀ l a, (S l).φ a = (lane32 a l : ZMod 65537)
  sys : c.base.sys = false
  hw : WordSize c.base.word_size
  wl : c.base.word_size = 2 * lanes
  n_data : c.base.n_data = k
  n_parities : c.base.n_parities = m
  code_len : c.base.code_len = k + m
  n_outputs : c.base.n_outputs = k + m
  hn : c.base.n = n
  le : k + m ≤ n
  n16 : n ≤ 2 ^ 16
  r : ∀ l, (S l).V c.base.r ∧ (S l).φ c.base.r = g
  env : DecEnv S c.base.fft c.base.fft_2k k n len_2k (fun _ => g) (fun _ => g2) okLen
  okk : okLen k
  mul : c.base.F.mul = c.N.mul

/-- lane `l` of the row `a`, as a polynomial -/
noncomputable def lanePoly (a : Array Nat) (l : Nat) : (ZMod 65537)[X] := ∑ j ∈ range a.size, C (lane16 (gt a j) l : ZMod 65537) * X ^ j

theorem lanePoly_coeff (a : Array Nat) (l i : Nat) : (lanePoly a l).coeff i = if i < a.size then (lane16 (gt a i) l : ZMod 65537) else 0 := by
  unfold lanePoly
  rw [finsetSum_coeff]
  simp only [coeff_C_mul_X_pow]
  by_cases h : i < a.size
  · rw [if_pos h, sum_eq_single i]
    · simp
    · intro b _ hb; rw [if_neg (Ne.symm hb)]
    · intro hm; exact absurd (mem_range.mpr h) hm
  · rw [if_neg h]
    apply sum_eq_zero
    intro b hb; rw [if_neg]; have := mem_range.mp hb; omega

/-- symbol `f` of the codeword of `a` -/
noncomputable def sym (lanes : Nat) (g : ZMod 65537) (a : Array Nat) (f : Nat) : Nat :=
  word 32 lanes (fun l => ((lanePoly a l).eval (g ^ f)).val)

/-- what is stored of it -/
noncomputable def stored (N : NF4) (lanes : Nat) (g : ZMod 65537) (a : Array Nat) (f : Nat) : Nat := (N.unpack (sym lanes g a f)).1

/-- its mark -/
noncomputable def markOf (N : NF4) (lanes : Nat) (g : ZMod 65537) (a : Array Nat) (f : Nat) : Option Nat :=
  if (N.unpack (sym lanes g a f)).2 > 0 then some (N.unpack (sym lanes g a f)).2 else none

theorem sym_packed (lanes : Nat) (g : ZMod 65537) (a : Array Nat) (f : Nat) :
    Packed lanes (sym lanes g a f) ∧ ∀ l, l < lanes → (lane32 (sym lanes g a f) l : ZMod 65537) = (lanePoly a l).eval (g ^ f) := by
  have hw := word_packed (n := lanes) (f := fun l => ((lanePoly a l).eval (g ^ f)).val) (fun l _ => ZMod.val_lt _)
  refine ⟨hw.1, fun l hl => ?_⟩
  unfold sym
  rw [hw.2 l hl, ZMod.natCast_val, ZMod.cast_id]

variable {c : Code} {b lanes k m n len_2k : Nat} {simd : Option (Nat × (Nat → Nat))} {S : Fin lanes → c.base.F.Sim (ZMod 65537)}
  {g g2 : ZMod 65537} {okLen : Nat → Prop}

theorem packed_eq {lanes a d : Nat} (ha : Packed lanes a) (hd : Packed lanes d)
    (h : ∀ l, l < lanes → (lane32 a l : ZMod 65537) = (lane32 d l : ZMod 65537)) : a = d :=
  packed_ext ha hd (fun l hl => RingModN.cast_inj (ha.lane l hl) (hd.lane l hl) (h l hl))

theorem packWords_spec (c : Code) {words : Array Nat} (h : c.base.n_data ≤ words.size) :
    ∃ r, packWords c words = .ok r ∧ r.size = words.size ∧ ∀ i, i < c.base.n_data → gt r i = c.N.pack (gt words i) := by
  obtain ⟨r, e, h1, h2, _⟩ := forN_inv (n := c.base.n_data) (s := words) (f := fun i words => do
      let x ← rd words i
      wr words i (c.N.pack x))
    (I := fun t (r : Array Nat) => r.size = words.size ∧ (∀ i, i < t → gt r i = c.N.pack (gt words i)) ∧
      ∀ i, t ≤ i → gt r i = gt words i)
    ⟨rfl, by simp, by simp⟩ (by
      rintro t r ht ⟨h1, h2, h3⟩
      refine ⟨_, by rw [rd_gt (a := r) (by omega), ok_bind, wr_ok (by omega)], by simp [h1], ?_, ?_⟩
      · intro i hi
        rw [gt_set (by omega)]
        by_cases he : i = t
        · subst he; rw [if_pos rfl, h3 i le_rfl]
        · rw [if_neg he]; exact h2 i (by omega)
      · intro i hi
        rw [gt_set (by omega), if_neg (by omega)]
        exact h3 i (by omega))
  exact ⟨r, e, h1, h2⟩

theorem unpackWords_spec (c : Code) {words : Array Nat} (h : c.base.n_data ≤ words.size) :
    ∃ r, unpackWords c words = .ok r ∧ r.size = words.size ∧ ∀ i, i < c.base.n_data → gt r i = (c.N.unpack (gt words i)).1 := by
  obtain ⟨r, e, h1, h2, _⟩ := forN_inv (n := c.base.n_data) (s := words) (f := fun i words => do
      let x ← rd words i
      wr words i (c.N.unpack x).1)
    (I := fun t (r : Array Nat) => r.size = words.size ∧ (∀ i, i < t → gt r i = (c.N.unpack (gt words i)).1) ∧
      ∀ i, t ≤ i → gt r i = gt words i)
    ⟨rfl, by simp, by simp⟩ (by
      rintro t r ht ⟨h1, h2, h3⟩
      refine ⟨_, by rw [rd_gt (a := r) (by omega), ok_bind, wr_ok (by omega)], by simp [h1], ?_, ?_⟩
      · intro i hi
        rw [gt_set (by omega)]
        by_cases he : i = t
        · subst he; rw [if_pos rfl, h3 i le_rfl]
        · rw [if_neg he]; exact h2 i (by omega)
      · intro i hi
        rw [gt_set (by omega), if_neg (by omega)]
        exact h3 i (by omega))
  exact ⟨r, e, h1, h2⟩

theorem post_spec (c : Code) {output : Array Nat} {props : Array Properties} {off : Nat} (h1 : c.base.code_len ≤ output.size)
    (h2 : c.base.code_len ≤ props.size) :
    ∃ o p, encode_post_process c output props off = .ok (o, p) ∧ o.size = output.size ∧ p.size = props.size ∧
      ∀ f, f < c.base.code_len → gt o f = (c.N.unpack (gt output f)).1 ∧
        gt p f = (gt props f).addMark off (if (c.N.unpack (gt output f)).2 > 0 then some (c.N.unpack (gt output f)).2 else none) := by
  unfold encode_post_process
  obtain ⟨s, e', i1, i2, i3, _⟩ := forN_inv (n := c.base.code_len) (s := (output, props)) (f := fun i s => do
      let val ← rd s.1 i
      let t := c.N.unpack val
      let props ← if t.2 > 0 then do
          let P ← rd s.2 i
          wr s.2 i (P.add off t.2)
        else pure s.2
      let output ← wr s.1 i t.1
      pure (output, props))
    (I := fun t (s : Array Nat × Array Properties) => s.1.size = output.size ∧ s.2.size = props.size ∧
      (∀ f, f < t → gt s.1 f = (c.N.unpack (gt output f)).1 ∧
        gt s.2 f = (gt props f).addMark off (if (c.N.unpack (gt output f)).2 > 0 then some (c.N.unpack (gt output f)).2 else none)) ∧
      (∀ f, t ≤ f → gt s.1 f = gt output f ∧ gt s.2 f = gt props f))
    ⟨rfl, rfl, by simp, by simp⟩ (by
      rintro t ⟨o, P⟩ ht ⟨i1, i2, i3, i4⟩
      simp only at i1 i2 i3 i4 ⊢
      rw [rd_gt (a := o) (by omega), ok_bind, (i4 t le_rfl).1]
      by_cases hm : (c.N.unpack (gt output t)).2 > 0
      · rw [if_pos hm, rd_gt (a := P) (by omega), ok_bind, wr_ok (by omega), ok_bind, wr_ok (by omega), ok_bind]
        refine ⟨_, rfl, by simp [i1], by simp [i2], ?_, ?_⟩
        · intro f hf
          simp only
          rw [gt_set (by omega), gt_set (by omega)]
          by_cases h : f = t
          · subst h; rw [if_pos rfl, if_pos rfl, if_pos hm, (i4 f le_rfl).2]; exact ⟨rfl, rfl⟩
          · rw [if_neg h, if_neg h]; exact i3 f (by omega)
        · intro f hf
          simp only
          rw [gt_set (by omega), gt_set (by omega), if_neg (by omega), if_neg (by omega)]
          exact i4 f (by omega)
      · rw [if_neg hm]
        simp only [pure, Except.pure, ok_bind]
        rw [wr_ok (by omega), ok_bind]
        refine ⟨_, rfl, by simp [i1], i2, ?_, ?_⟩
        · intro f hf
          simp only
          rw [gt_set (by omega)]
          by_cases h : f = t
          · subst h; rw [if_pos rfl, if_neg hm]; exact ⟨rfl, (i4 f le_rfl).2⟩
          · rw [if_neg h]; exact i3 f (by omega)
        · intro f hf
          simp only
          rw [gt_set (by omega), if_neg (by omega)]
          exact i4 f (by omega))
  exact ⟨s.1, s.2, e', i1, i2, i3⟩

theorem prep_spec (c : Code) {C : Ctx} {props : Array Properties} {off : Nat} {words : Array Nat} {M : Nat}
    (hids : ValidIds c.base.n_data M C.fragments_ids) (hp : M ≤ props.size) (hpi : M ≤ C.props_indices.size)
    (hw : c.base.n_data ≤ words.size) :
    ∃ pi ws, decode_prepare c C props off words = .ok ({ C with props_indices := pi }, ws) ∧
      pi.size = C.props_indices.size ∧ ws.size = words.size ∧
      ∀ i, i < c.base.n_data →
        gt ws i = (if (gt props (gt C.fragments_ids i)).is_marked (gt C.props_indices (gt C.fragments_ids i)) off
          then c.N.packFlag (gt words i) ((gt props (gt C.fragments_ids i)).marker (gt C.props_indices (gt C.fragments_ids i)))
          else c.N.pack (gt words i)) ∧
        gt pi (gt C.fragments_ids i) = gt C.props_indices (gt C.fragments_ids i) +
          (if (gt props (gt C.fragments_ids i)).is_marked (gt C.props_indices (gt C.fragments_ids i)) off then 1 else 0) := by
  have hsz := hids.size
  obtain ⟨s, e, pi, ws, hs, h1, h2, h3, _⟩ := forN_inv (n := c.base.n_data) (s := (C, words)) (f := fun i s => do
      let j ← rd s.1.fragments_ids i
      let P ← rd props j
      let idx ← rd s.1.props_indices j
      let x ← rd s.2 i
      if P.is_marked idx off then do
        let pi ← wr s.1.props_indices j (idx + 1)
        let words ← wr s.2 i (c.N.packFlag x (P.marker idx))
        pure ({ s.1 with props_indices := pi }, words)
      else do
        let words ← wr s.2 i (c.N.pack x)
        pure (s.1, words))
    (I := fun t (s : Ctx × Array Nat) => ∃ pi ws, s = ({ C with props_indices := pi }, ws) ∧
      pi.size = C.props_indices.size ∧ ws.size = words.size ∧
      (∀ i, i < t →
        gt ws i = (if (gt props (gt C.fragments_ids i)).is_marked (gt C.props_indices (gt C.fragments_ids i)) off
          then c.N.packFlag (gt words i) ((gt props (gt C.fragments_ids i)).marker (gt C.props_indices (gt C.fragments_ids i)))
          else c.N.pack (gt words i)) ∧
        gt pi (gt C.fragments_ids i) = gt C.props_indices (gt C.fragments_ids i) +
          (if (gt props (gt C.fragments_ids i)).is_marked (gt C.props_indices (gt C.fragments_ids i)) off then 1 else 0)) ∧
      ∀ i, t ≤ i → i < c.base.n_data → gt ws i = gt words i ∧ gt pi (gt C.fragments_ids i) = gt C.props_indices (gt C.fragments_ids i))
    ⟨C.props_indices, words, rfl, rfl, rfl, by simp, fun _ _ _ => ⟨rfl, rfl⟩⟩ (by
      rintro t s ht ⟨pi, ws, rfl, h1, h2, h3, h4⟩
      have hlt := hids.lt t ht
      obtain ⟨q1, q2⟩ := h4 t le_rfl ht
      simp only
      rw [rd_gt (a := C.fragments_ids) (by omega), ok_bind, rd_gt (a := props) (by omega), ok_bind, rd_gt (a := pi) (by omega), ok_bind,
        rd_gt (a := ws) (by omega), ok_bind, q1, q2]
      by_cases hm : (gt props (gt C.fragments_ids t)).is_marked (gt C.props_indices (gt C.fragments_ids t)) off = true
      · rw [if_pos hm, wr_ok (by omega), ok_bind, wr_ok (by omega), ok_bind]
        refine ⟨_, rfl, _, _, rfl, by simp [h1], by simp [h2], ?_, ?_⟩
        · intro i hi
          rw [gt_set (by omega), gt_set (by omega)]
          by_cases he : i = t
          · subst he; rw [if_pos rfl, if_pos rfl, if_pos hm, if_pos hm]; exact ⟨rfl, rfl⟩
          · rw [if_neg he, if_neg (fun h => he (hids.inj i t (by omega) ht h))]
            exact h3 i (by omega)
        · intro i hi hi'
          rw [gt_set (by omega), gt_set (by omega), if_neg (by omega), if_neg (fun h => by have := hids.inj i t hi' ht h; omega)]
          exact h4 i (by omega) hi'
      · rw [if_neg hm, wr_ok (by omega), ok_bind]
        refine ⟨_, rfl, _, _, rfl, h1, by simp [h2], ?_, ?_⟩
        · intro i hi
          rw [gt_set (by omega)]
          by_cases he : i = t
          · subst he; rw [if_pos rfl, if_neg hm, if_neg hm]; exact ⟨rfl, q2⟩
          · rw [if_neg he]; exact h3 i (by omega)
        · intro i hi hi'
          rw [gt_set (by omega), if_neg (by omega)]
          exact h4 i (by omega) hi')
  subst hs
  exact ⟨pi, ws, e, h1, h2, h3⟩

theorem pack_row (G : Good c b lanes simd k m S n len_2k g g2 okLen) {v : Nat} (hv : v < 256 ^ c.base.word_size) :
    v < 2 ^ (16 * lanes) ∧ Packed lanes (c.N.pack v) ∧ ∀ l, l < lanes → lane32 (c.N.pack v) l = lane16 v l := by
  have hv' : v < 2 ^ (16 * lanes) := by
    rw [G.wl] at hv
    refine lt_of_lt_of_le hv (le_of_eq ?_)
    rw [show (256 : Nat) = 2 ^ 8 by norm_num, ← pow_mul]; congr 1; ring
  refine ⟨hv', (Props.C16_unpack_pack G.H hv').1, fun l hl => ?_⟩
  rw [G.H.pack_eq hv']
  exact (word_packed (fun l _ => by have := IsNf4.lane16_lt v l; omega)).2 l hl

/-- the polynomial of a packed row, seen by lane `l` -/
theorem polyOf_row (G : Good c b lanes simd k m S n len_2k g g2 okLen) {a a' : Array Nat} (ha : IsRow c.base.word_size c.base.n_data a)
    (hs : a'.size = a.size) (h : ∀ i, i < c.base.n_data → gt a' i = c.N.pack (gt a i)) (l : Fin lanes) :
    polyOf (S l) a' = lanePoly a l := by
  unfold polyOf lanePoly
  rw [hs]
  refine sum_congr rfl (fun j hj => ?_)
  have hj := mem_range.mp hj
  have hj' : j < c.base.n_data := by have := ha.1; omega
  rw [G.φ, h j hj', (pack_row G (ha.2 j hj')).2.2 l l.2]

theorem hspec (G : Good c b lanes simd k m S n len_2k g g2 okLen) :
    (fec c).HSpec (stored c.N lanes g) (markOf c.N lanes g) := by
  have hk := G.env.kpos
  have hkn := G.env.kn
  have hsys := G.sys
  have hnout := G.n_outputs
  have hle := G.le
  have hnd := G.n_data
  have hcl := G.code_len
  have hn16 := G.n16
  haveI : Nonempty (Fin lanes) := ⟨⟨0, G.H.build.pos⟩⟩
  have hsym := fun (a : Array Nat) (f : Nat) => sym_packed lanes g a f
  have hpu : ∀ (a : Array Nat) (f : Nat), stored c.N lanes g a f < 2 ^ (16 * lanes) ∧
      (c.N.unpack (sym lanes g a f)).2 < 2 ^ lanes ∧
      c.N.packFlag (stored c.N lanes g a f) (c.N.unpack (sym lanes g a f)).2 = sym lanes g a f :=
    fun a f => Props.C16_pack_unpack G.H (hsym a f).1
  -- a word whose flag is zero packs back without it
  have hpu0 : ∀ (a : Array Nat) (f : Nat), (c.N.unpack (sym lanes g a f)).2 = 0 → c.N.pack (stored c.N lanes g a f) = sym lanes g a f := by
    intro a f h0
    obtain ⟨p1, p2, p3⟩ := hpu a f
    rw [h0] at p3
    rw [← p3, G.H.pack_eq p1, G.H.packFlag_eq p1 (by positivity)]
    exact word_congr (fun l _ => by simp)
  refine ⟨G.hw, by show 0 < c.base.n_data; omega, ?_, ?_, ?_, ?_, ?_, ?_⟩
  · show c.base.code_len = c.base.n_data + c.base.n_parities
    rw [hcl, hnd, G.n_parities]
  · show c.base.n_outputs = if c.base.sys then c.base.n_parities else c.base.code_len
    rw [hsys, hnout, hcl]; rfl
  · show c.base.n_outputs ≤ c.base.n
    rw [hnout, G.hn]; exact hle
  · intro a f _ _
    show stored c.N lanes g a f < 256 ^ c.base.word_size
    rw [G.wl]
    refine lt_of_lt_of_le (hpu a f).1 (le_of_eq ?_)
    rw [show (256 : Nat) = 2 ^ 8 by norm_num, ← pow_mul]; congr 1; ring
  · intro out props off a h1 h2 h3
    replace h1 : out.size = n := h1.trans G.hn
    replace h2 : props.size = k + m := h2.trans hnout
    replace h3 : IsRow c.base.word_size c.base.n_data a := h3
    have h3s := h3.1
    obtain ⟨a', ea, sa, ha⟩ := packWords_spec c (words := a) h3s.ge
    have hV : ∀ l j, j < a'.size → (S l).V (gt a' j) := by
      intro l j hj
      have hj' : j < c.base.n_data := by omega
      rw [G.V, ha j hj']
      exact (pack_row G (h3.2 j hj')).2.1
    have hf : ∀ l, _ := fun l => (G.env.fft l).fft_eval (out := out) (input := a') h1 (by rw [sa, h3s, hnd]; exact G.okk) (hV l)
    obtain ⟨r, er, sr, _⟩ := hf ⟨0, G.H.build.pos⟩
    have hr : ∀ f, f < n → gt r f = sym lanes g a f := by
      intro f hf'
      have key : ∀ l, (S l).V (gt r f) ∧ (S l).φ (gt r f) = (polyOf (S l) a').eval (g ^ f) := by
        intro l
        obtain ⟨r', er', _, h'⟩ := hf l
        rw [er] at er'; cases er'
        exact h' f hf'
      refine packed_eq ((G.V ⟨0, G.H.build.pos⟩ _).mp (key _).1) (hsym a f).1 (fun l hl => ?_)
      rw [(hsym a f).2 l hl]
      have := (key ⟨l, hl⟩).2
      rw [G.φ, polyOf_row G h3 sa ha] at this
      exact this
    obtain ⟨o', p', ee, s1, s2, hh⟩ := post_spec c (output := r) (props := props) (off := off) (by omega) (by omega)
    refine ⟨o', p', ?_, ?_, ?_, ?_⟩
    · show encode c out props off a = _
      unfold encode
      rw [ea, ok_bind, er, ok_bind, ee]
    · show o'.size = c.base.n
      rw [G.hn]; omega
    · show p'.size = c.base.n_outputs
      omega
    · intro f hf'
      replace hf' : f < k + m := by
        have : f < c.base.n_outputs := hf'
        omega
      have := hh f (by omega)
      rw [hr f (by omega)] at this
      exact this
  · intro rows T ids props mem hrows hids _ h3 hprops
    replace hrows : ∀ t, t < T → IsRow c.base.word_size c.base.n_data (rows t) := hrows
    replace hids : ValidIds c.base.n_data c.base.n_outputs ids := by
      have : ValidIds c.base.n_data (if c.base.sys then c.base.n_data + c.base.n_outputs else c.base.n_outputs) ids := hids
      rwa [hsys, if_neg (by simp)] at this
    replace h3 : props.size = c.base.n_outputs := h3
    have hids' : ValidIds c.base.n_data n ids := ⟨hids.size, hids.inj, fun i hi => by have := hids.lt i hi; omega⟩
    have hprops' : ∀ i, i < c.base.n_data → gt props (gt ids i) = ⟨marksOf (fun t => markOf c.N lanes g (rows t) (gt ids i)) T⟩ := by
      intro i hi
      refine hprops i (gt ids i) hi (hids.lt i hi) ?_
      show gt ids i = if c.base.sys then _ else _
      rw [hsys]; rfl
    have env := G.env
    rw [← hnd] at env
    have hinj : Set.InjOn (fun i => gt ids i) (range c.base.n_data) :=
      fun i hi j hj he => hids.inj i j (by simpa using hi) (by simpa using hj) he
    -- the points
    obtain ⟨vx, evx, svx, hvx⟩ := forN_inv (n := c.base.n_data) (s := fresh mem c.base.n_data) (f := fun i vx => do
        let j ← rd ids i
        wr vx i (c.N.exp c.base.r (c.N.replicate j)))
      (I := fun t (vx : Array Nat) => vx.size = c.base.n_data ∧ ∀ i, i < t → gt vx i = c.N.exp c.base.r (c.N.replicate (gt ids i)))
      ⟨by simp [fresh], by simp⟩ (by
        rintro t vx ht ⟨i1, i2⟩
        have := hids.size
        refine ⟨_, by rw [rd_gt (a := ids) (by omega), ok_bind, wr_ok (by omega)], by simp [i1], fun i hi => ?_⟩
        rw [gt_set (by omega)]
        by_cases he : i = t
        · subst he; rw [if_pos rfl]
        · rw [if_neg he]; exact i2 i (by omega))
    have hvx' : ∀ (l : Fin lanes) i, i < c.base.n_data → (S l).V (gt vx i) ∧ (S l).φ (gt vx i) = g ^ gt ids i := by
      intro l i hi
      have hlt := hids'.lt i hi
      have he := Props.C15_exp G.H ((G.V l _).mp (G.r l).1) (c.N.replicate (gt ids i))
      rw [hvx i hi, G.V, G.φ]
      refine ⟨he.1, ?_⟩
      rw [he.2 l l.2, G.H.replicate_lane (by omega) l.2, ← G.φ, (G.r l).2]
    obtain ⟨C, eC, hC1, hC2⟩ := Ctx.mk'_spec env (ids := ids) (vx := vx) (props := props) mem hids.size hids'.lt hinj svx hvx'
    refine ⟨fun C t => (∀ l, C.Good (S l) c.base.n_data n len_2k g g2 ids) ∧ C.props_indices.size = c.base.n_outputs ∧
      ∀ i, i < c.base.n_data → gt C.props_indices (gt ids i) = (marksOf (fun t => markOf c.N lanes g (rows t) (gt ids i)) t).length,
      C, props.map Properties.sort, ?_, ⟨hC2, by rw [hC1]; simp [h3], ?_⟩, ?_⟩
    · show init_context_dec c ids props mem = _
      unfold init_context_dec
      rw [evx, ok_bind, G.hn]
      exact eC
    · intro i hi
      rw [hC1, gt_replicate (by rw [h3]; exact hids.lt i hi)]; rfl
    · rintro t C out words ht ⟨c1, c2, c3⟩ hout hws hwords
      replace hout : out.size = c.base.n_data := hout
      replace hws : c.base.n_data ≤ words.size := by
        have : words.size = if c.base.sys then c.base.n_data else c.base.code_len := hws
        rw [this, hsys, hcl, hnd]; simp
      have hrow := hrows t ht
      have hwords' : ∀ i, i < c.base.n_data → gt words i = stored c.N lanes g (rows t) (gt ids i) := by
        intro i hi
        rw [hwords i hi]
        show fragVal c.base.sys _ _ _ _ = _
        unfold fragVal; rw [hsys]; rfl
      have hsort : ∀ i, i < c.base.n_data → gt (props.map Properties.sort) (gt ids i)
          = ⟨marksOf (fun t => markOf c.N lanes g (rows t) (gt ids i)) T⟩ := by
        intro i hi
        have hl : gt ids i < props.size := by rw [h3]; exact hids.lt i hi
        have h5 := hprops' i hi
        rw [gt_eq hl] at h5
        rw [gt_eq (by simpa using hl), Array.getElem_map, h5, sort_marksOf]
      have hat : ∀ i, i < c.base.n_data → _ := fun i hi => marksOf_at (f := fun t => markOf c.N lanes g (rows t) (gt ids i)) ht
        (P := gt (props.map Properties.sort) (gt ids i)) (by rw [hsort i hi])
      have hidsC : C.fragments_ids = ids := (c1 ⟨0, G.H.build.pos⟩).idsEq
      obtain ⟨pi, ws, ep, p1, p2, p3⟩ := prep_spec c (C := C) (props := props.map Properties.sort)
        (off := t) (words := words) (M := c.base.n_outputs) (by rw [hidsC]; exact hids) (by simp [h3]) (by omega) hws
      rw [hidsC] at p3
      have hp : ∀ i, i < c.base.n_data → gt ws i = sym lanes g (rows t) (gt ids i) ∧
          gt pi (gt ids i) = (marksOf (fun t => markOf c.N lanes g (rows t) (gt ids i)) (t + 1)).length := by
        intro i hi
        obtain ⟨q1, q2⟩ := p3 i hi
        rw [q1, q2, c3 i hi, marksOf_succ, List.length_append, hwords' i hi]
        by_cases hm : (c.N.unpack (sym lanes g (rows t) (gt ids i))).2 > 0
        · have hmk : markOf c.N lanes g (rows t) (gt ids i) = some (c.N.unpack (sym lanes g (rows t) (gt ids i))).2 := by
            unfold markOf; rw [if_pos hm]
          obtain ⟨r1, r2⟩ := (hat i hi).1 _ hmk
          rw [if_pos r1, r2, if_pos r1, hmk]
          exact ⟨(hpu _ _).2.2, by simp⟩
        · have hmk : markOf c.N lanes g (rows t) (gt ids i) = none := by unfold markOf; rw [if_neg hm]
          have r1 := (hat i hi).2 hmk
          rw [if_neg (by rw [r1]; simp), if_neg (by rw [r1]; simp), hmk]
          exact ⟨hpu0 _ _ (by omega), by simp⟩
      have c1' : ∀ l, ({ C with props_indices := pi } : Ctx).Good (S l) c.base.n_data n len_2k g g2 ids := fun l =>
        ⟨(c1 l).len, (c1 l).idsEq, (c1 l).invSize, (c1 l).inv, (c1 l).ASize, (c1 l).A, (c1 l).v1n, (c1 l).v2n, (c1 l).v12, (c1 l).v22⟩
      have hdec : ∀ l, _ := fun l => FecBase.decode_apply_spec (B := c.base) (S := S l) env.kpos env.kn env.k2 rfl
        (env.fft l) (env.fft_2k l) (c1' l) hids.size hids'.lt hinj (output := out) (words := ws) hout
        (by omega) (fun i hi => by
          rw [(hp i hi).1, G.V]
          exact (hsym _ _).1)
      obtain ⟨C', r, er, sr, pr, _⟩ := hdec ⟨0, G.H.build.pos⟩
      have hr : ∀ l, C'.Good (S l) c.base.n_data n len_2k g g2 ids ∧ ∀ i, i < c.base.n_data →
          Packed lanes (gt r i) ∧ (lane32 (gt r i) l : ZMod 65537) = (lanePoly (rows t) l).coeff i := by
        intro l
        obtain ⟨C2, r2, er2, _, _, gr, vr, hr⟩ := hdec l
        rw [er] at er2
        obtain ⟨rfl, rfl⟩ := Prod.mk.inj (Except.ok.inj er2)
        refine ⟨gr, fun i hi => ⟨(G.V l _).mp (vr i hi), ?_⟩⟩
        rw [← G.φ]
        refine hr (lanePoly (rows t) l) ?_ (fun i hi => ?_) i hi
        · rw [degree_lt_iff_coeff_zero]
          intro j hj
          rw [lanePoly_coeff, if_neg (by rw [hrow.1]; omega)]
        · rw [(hp i hi).1, G.φ]
          exact (hsym _ _).2 l l.2
      obtain ⟨r', er', sr', hr'⟩ := unpackWords_spec c (words := r) (by omega)
      refine ⟨C', r', ?_, ?_, ⟨fun l => (hr l).1, ?_, ?_⟩, ?_⟩
      · show decode c C out _ t words = _
        unfold decode decode_apply
        rw [ep, ok_bind]
        simp only
        rw [er, ok_bind, er', ok_bind]
        rfl
      · show r'.size = c.base.n_data
        omega
      · rw [pr]; show pi.size = _; omega
      · intro i hi
        rw [pr]
        exact (hp i hi).2
      · intro i hi
        replace hi : i < c.base.n_data := hi
        have hv := pack_row G (hrow.2 i hi)
        rw [hr' i hi]
        have : gt r i = c.N.pack (gt (rows t) i) := by
          refine packed_eq (((hr ⟨0, G.H.build.pos⟩).2 i hi).1) hv.2.1 (fun l hl => ?_)
          rw [((hr ⟨l, hl⟩).2 i hi).2, hv.2.2 l hl]
          rw [lanePoly_coeff, if_pos (by rw [hrow.1]; exact hi)]
        rw [this, (Props.C16_unpack_pack G.H hv.1).2]

theorem powers_ok (F : GF) (x len : Nat) (mem : Nat → Nat) : ∃ r, RsFnt.powers F x len mem = .ok r := by
  obtain ⟨r, e, _⟩ := forN_fill (n := len) (a := fresh mem len) (fun i => F.exp x i) (by simp)
  exact ⟨r, e⟩

theorem mkCode_spec {b w k m pkt : Nat} {simd : Option (Nat × (Nat → Nat))} (h : Nf4Params b simd w k m) (mem : Nat → Nat) :
    ∃ c, mkCode b simd w k m pkt mem = .ok c ∧ c.base.word_size = w ∧
      ∃ (S : Fin (w / 2) → c.base.F.Sim (ZMod 65537)) (n len_2k : Nat) (g g2 : ZMod 65537) (okLen : Nat → Prop),
        Good c b (w / 2) simd k m S n len_2k g g2 okLen := by
  obtain ⟨hw, hB, hk, hm, hlen, htwo⟩ := h
  obtain ⟨N, eN, H⟩ := Props.C15_constructor hB
  obtain ⟨O, hO, hON, _⟩ := H.init_spec
  obtain ⟨L, eL, hL, hL', _⟩ := H.sub_field.codeLen (e := 16) (by norm_num) (m := m + k) (by omega) (by norm_num; omega)
  obtain ⟨L2, eL2, hL2, hL2'⟩ := H.codeLen hO (m := 2 * k) (by omega) (by norm_num; omega)
  obtain ⟨r, g, er, hg, hr⟩ := H.nthRoot hO hL
  obtain ⟨r2, g2, er2, hg2, hr2⟩ := H.nthRoot hO hL2
  obtain ⟨d, ed, hd1, hd2⟩ := Arith.ceil2_spec (b := 32) (n := k) hk (by norm_num; omega)
  have hdL : 2 ^ d ≤ 2 ^ L := hd2 L (by omega)
  have hdL' : d ≤ L := (Nat.pow_le_pow_iff_right (by omega)).mp hdL
  obtain ⟨R, eR, hR⟩ := H.ftSpec hO (pkt := pkt) hL (by positivity) hdL er hg hr
  obtain ⟨R2, eR2, hR2⟩ := H.ftSpec hO (pkt := pkt) (dl := 2 ^ L2) hL2 (by positivity) le_rfl er2 hg2 hr2
  obtain ⟨ir, eir, _⟩ := (H.sim hO ⟨0, hB.pos⟩).inv (a := r) (hr _).1 trivial
  obtain ⟨P1, eP1⟩ := powers_ok O.gf ir (k + 1) mem
  obtain ⟨P2, eP2⟩ := powers_ok O.gf r (2 ^ L) mem
  refine ⟨⟨{ sys := false, word_size := w, n_data := k, n_parities := m,
              code_len := k + m, n_outputs := k + m,
              pkt_size := pkt, n := 2 ^ L, r := r, F := O.gf, fft := R.ft pkt, fft_2k := R2.ft pkt,
              inv_r_powers := P1, r_powers := P2 }, N⟩, ?_, rfl, H.sim hO, 2 ^ L, 2 ^ L2, (g : ZMod 65537), (g2 : ZMod 65537),
      (fun m => ∃ d', d' ≤ L ∧ (if m > 2 ^ d then m else 2 ^ d) = 2 ^ d'), ?_⟩
  · unfold mkCode
    have h1 : w ≥ 2 := by omega
    have h2 : w ≤ 8 := by omega
    simp only [cassert, h1, h2, decide_true, if_true, ok_bind]
    rw [eN, ok_bind, hO, ok_bind, eL, ok_bind, er, ok_bind, ed, ok_bind, eR, ok_bind, eL2, ok_bind, eR2, ok_bind, eir, ok_bind,
      eP1, ok_bind, eP2, ok_bind]
    rfl
  · refine ⟨H, fun l a => Iff.rfl, fun l a => rfl, rfl, ?_, ?_, rfl, rfl, rfl, rfl, rfl, by omega,
      Nat.pow_le_pow_right (by norm_num) hL, hr, ?_, ?_, by show O.N.mul = N.mul; rw [hON]⟩
    · show WordSize w
      unfold WordSize; omega
    · show w = 2 * (w / 2)
      omega
    · refine ⟨H.char hO, H.oneWord hO, fun _ _ _ => trivial, hk, by omega, hL2', ?_, eL2, hR, fun l => ?_⟩
      · exact ⟨L, le_rfl, by split <;> omega⟩
      · have hF2 := hR2 l
        refine ⟨hF2.n, hF2.pos, hF2.nz, hF2.root, ?_, hF2.fft_inv, hF2.ifft⟩
        intro out input h1 h2 h3
        exact hF2.fft h1 ⟨L2, le_rfl, by rw [h2]; simp⟩ h3
    · exact ⟨d, hdL', by rw [if_neg (by omega)]⟩

end RsNf4
end Quad
