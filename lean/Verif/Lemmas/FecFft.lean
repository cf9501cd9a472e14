import Verif.Model.FecFft
import Verif.Lemmas.CodeLen
import Verif.Lemmas.FecFntStream

/-!
# Non-systematic codes over any field object: the words are the values of a polynomial at the powers of a root
-/

namespace Quad
open Finset Polynomial Spec

variable {F : GF} [F.Plain] {K : Type} [Field K] {S : F.Sim K} {b q : Nat}

theorem DftField.nz (D : DftField F b q S) {n : Nat} (hn : n ∣ q - 1) : (n : K) ≠ 0 := by
  obtain ⟨v, _, h1, h2⟩ := D.invN n hn
  by_cases c : v ≤ 1
  · rw [h1 c]; exact one_ne_zero
  · intro h
    have := (h2 (by omega)).2
    rw [h, mul_zero] at this
    exact zero_ne_one this

/-- a transform that computes the DFT, with the scaled inverse of the first layer -/
theorem ftSpec_of (D : DftField F b q S) {T : FT} {n v : Nat} {w : K} (hn : n ∣ q - 1) (hw : IsPrimitiveRoot w n) (hT : IsFT S T n w)
    (hTn : T.n = n) (ev : F.invN n = .ok v) (hi : T.ifft = fun out input => T.fft_inv out input >>= fun out => scaleIf F v out) :
    T.Spec S n w (fun m => m = n) := by
  refine ⟨hTn, D.dvd_pos hn, D.nz hn, hw, ?_, ?_, ?_⟩
  · intro out input h1 h2 h3
    obtain ⟨r, e, s, h⟩ := hT.fft out input h1 h2 (fun j hj => h3 j (by omega))
    exact ⟨r, e, s, fun i hi => ⟨(h i hi).1, by rw [(h i hi).2, h2]⟩⟩
  · intro out input h1 h2 h3
    exact hT.fft_inv out input h1 h2 h3
  · intro out input h1 h2 h3
    obtain ⟨r, e, s, h⟩ := hT.fft_inv out input h1 h2 h3
    obtain ⟨v', ev', c1, c2⟩ := D.invN n hn
    rw [ev] at ev'
    obtain rfl : v = v' := Except.ok.inj ev'
    rw [hi]
    simp only
    rw [e, ok_bind]
    unfold scaleIf
    by_cases hgt : v > 1
    · rw [if_pos hgt]
      obtain ⟨d1, d2⟩ := c2 hgt
      obtain ⟨r', er, r1, r2⟩ := mulScalar_spec (a := r) d1 (fun j hj => (h j (by omega)).1)
      refine ⟨r', er, by omega, fun i hi => ⟨(r2 i (by omega)).1, ?_⟩⟩
      rw [(r2 i (by omega)).2, (h i hi).2, mul_comm, eq_inv_of_mul_eq_one_left d2]
    · rw [if_neg hgt]
      refine ⟨r, rfl, s, fun i hi => ⟨(h i hi).1, ?_⟩⟩
      rw [(h i hi).2, c1 (by omega), inv_one, one_mul]

/-- the Cooley-Tukey transform as the codes build it -/
theorem ct_spec (D : DftField F b q S) (mem : Nat → Nat) {n : Nat} (h2n : 2 ≤ n) (hn : n ∣ q - 1) (hlt : n < 2 ^ 31)
    (hsq : ∀ p, p.Prime → p ∣ n → (p - 1) * (p - 1) < 2 ^ 31) :
    ∃ T w, CooleyTukey.mk' F b n mem = .ok T ∧ F.nthRoot n = .ok w ∧ S.V w ∧ IsPrimitiveRoot (S.φ w) n ∧
      T.Spec S n (S.φ w) (fun m => m = n) := by
  obtain ⟨T, v, w, e1, e2, e3, h1, h2, h3, h4, h5⟩ := ct_ft D mem h2n hn hlt hsq
  exact ⟨T, w, e1, e3, h1, h2, ftSpec_of D hn h2 h3 h4 e2 h5⟩

omit [F.Plain] in
theorem polyOf_zeroExtended (S : F.Sim K) {a : Array Nat} {n : Nat} (h : a.size ≤ n) : polyOf S (zeroExtended a n) = polyOf S a := by
  ext m
  rw [polyOf_coeff, polyOf_coeff]
  by_cases c : m < n
  · rw [zeroExtended_gt c]
  · rw [gt_oob (by simp; omega), gt_oob (by omega)]

namespace FftCode

/-- a non-systematic code over a field of `q` elements, as built by a constructor; `L` is the number of values a word
of a stream has -/
structure Good (B : FecBase) (b q L k m : Nat) (S : B.F.Sim K) (n len_2k : Nat) (g2 : K) : Prop where
  plain : B.F.Plain
  D : DftField B.F b q S
  qL : L ≤ q
  qL2 : q ≤ 2 * L
  hL : L = 256 ^ B.word_size
  sys : B.sys = false
  hw : WordSize B.word_size
  n_data : B.n_data = k
  n_parities : B.n_parities = m
  code_len : B.code_len = k + m
  n_outputs : B.n_outputs = k + m
  hn : B.n = n
  le : k + m ≤ n
  rV : S.V B.r
  env : DecEnv (fun _ : Unit => S) B.fft B.fft_2k k n len_2k (fun _ => S.φ B.r) (fun _ => g2) (fun m => m = n)
  rpSize : B.r_powers.size = n
  rp : ∀ i, i < n → S.V (gt B.r_powers i) ∧ S.φ (gt B.r_powers i) = S.φ B.r ^ i

/-- what the post-processing must do -/
def PostSpec (B : FecBase) (q L : Nat) (post : Array Nat → Array Properties → Nat → Res (Array Nat × Array Properties)) : Prop :=
  ∀ {output : Array Nat} {props : Array Properties} {off : Nat}, B.n_outputs ≤ output.size → B.n_outputs ≤ props.size →
    (∀ f, f < B.n_outputs → gt output f < q) →
    ∃ out' props', post output props off = .ok (out', props') ∧ out'.size = output.size ∧ props'.size = props.size ∧
      ∀ f, f < B.n_outputs → gt out' f = gt output f % L ∧
        gt props' f = (gt props f).addMark off (if L ≤ gt output f then some OOR_MARK else none)

/-- what the preparation of the words must do -/
def PrepSpec (B : FecBase) (q L : Nat) (prep : Ctx → Array Properties → Nat → Array Nat → Res (Ctx × Array Nat)) : Prop :=
  ∀ {C : Ctx} {props : Array Properties} {off : Nat} {words : Array Nat} {N : Nat}, ValidIds B.n_data N C.fragments_ids →
    N ≤ props.size → N ≤ C.props_indices.size → B.n_data ≤ words.size →
    (∀ i, i < B.n_data → (gt props (gt C.fragments_ids i)).is_marked (gt C.props_indices (gt C.fragments_ids i)) off = true →
      (gt props (gt C.fragments_ids i)).marker (gt C.props_indices (gt C.fragments_ids i)) = OOR_MARK ∧ gt words i + L < q) →
    ∃ pi ws, prep C props off words = .ok ({ C with props_indices := pi }, ws) ∧
      pi.size = C.props_indices.size ∧ ws.size = words.size ∧
      ∀ i, i < B.n_data →
        gt ws i = (if (gt props (gt C.fragments_ids i)).is_marked (gt C.props_indices (gt C.fragments_ids i)) off
          then gt words i + L else gt words i) ∧
        gt pi (gt C.fragments_ids i) = gt C.props_indices (gt C.fragments_ids i) +
          (if (gt props (gt C.fragments_ids i)).is_marked (gt C.props_indices (gt C.fragments_ids i)) off then 1 else 0)

/-- a code with the given post-processing and preparation -/
structure Is (E : Fec Ctx) (B : FecBase) (post : Array Nat → Array Properties → Nat → Res (Array Nat × Array Properties))
    (prep : Ctx → Array Properties → Nat → Array Nat → Res (Ctx × Array Nat)) : Prop where
  base : E.base = B
  nout : E.get_n_outputs = B.n
  enc : ∀ out props off words, E.encode out props off words = B.transform out words >>= fun o => post o props off
  init : ∀ ids props mem, E.init_context_dec ids props mem = B.init_context_dec ids props mem
  dec : ∀ C out props off words, E.decode C out props off words = prep C props off words >>= fun s => B.decode_apply s.1 out s.2

/-- symbol `f` of the codeword of `a` -/
def sym (B : FecBase) (a : Array Nat) (f : Nat) : Nat := dftAt B.F B.r a f

/-- what is stored of it -/
def stored (B : FecBase) (L : Nat) (a : Array Nat) (f : Nat) : Nat := sym B a f % L

/-- its mark -/
def markOf (B : FecBase) (L : Nat) (a : Array Nat) (f : Nat) : Option Nat := if L ≤ sym B a f then some OOR_MARK else none

variable {B : FecBase} {S : B.F.Sim K} {L k m n len_2k : Nat} {g2 : K}

theorem sym_spec (G : Good B b q L k m S n len_2k g2) {a : Array Nat} (ha : IsRow B.word_size B.n_data a) (f : Nat) :
    sym B a f < q ∧ S.φ (sym B a f) = (polyOf S a).eval (S.φ B.r ^ f) := by
  haveI := G.plain
  have h := dftAt_sem G.rV (x := a) (fun j hj => (G.D.val _).mpr (by
    have := ha.2 j (by rw [← ha.1]; exact hj)
    have h1 := G.hL; have h2 := G.qL; omega)) f
  refine ⟨(G.D.val _).mp h.1, ?_⟩
  unfold sym
  rw [h.2]
  unfold polyOf
  rw [eval_finsetSum]
  apply sum_congr rfl
  intro j _
  simp only [eval_mul, eval_C, eval_pow, eval_X]
  rw [← pow_mul, mul_comm]

variable {post : Array Nat → Array Properties → Nat → Res (Array Nat × Array Properties)}
  {prep : Ctx → Array Properties → Nat → Array Nat → Res (Ctx × Array Nat)} {E : Fec Ctx}

theorem hspec (G : Good B b q L k m S n len_2k g2) (hE : Is E B post prep) (hpost : PostSpec B q L post)
    (hprep : PrepSpec B q L prep) : E.HSpec (stored B L) (markOf B L) := by
  have hk := G.env.kpos
  have hkn := G.env.kn
  have hsys := G.sys
  have hnout := G.n_outputs
  have hle := G.le
  have hL0 : 0 < L := by rw [G.hL]; positivity
  have hqL := G.qL
  have hqL2 := G.qL2
  obtain ⟨hb, hno, henc, hinit, hdec⟩ := hE
  refine ⟨by rw [hb]; exact G.hw, by rw [hb, G.n_data]; exact hk, ?_, ?_, ?_, ?_, ?_, ?_⟩
  · rw [hb, G.code_len, G.n_data, G.n_parities]
  · rw [hb, hsys, hnout, G.code_len]; rfl
  · rw [hb, hno, hnout, G.hn]; exact hle
  · intro a f _ _
    rw [hb, ← G.hL]
    exact Nat.mod_lt _ hL0
  · intro out props off a h1 h2 h3
    rw [hno, G.hn] at h1
    rw [hb] at h2 h3
    have hs := fun f => sym_spec G h3 f
    obtain ⟨h3s, h3v⟩ := h3
    rw [G.n_data] at h3s h3v
    obtain ⟨r, er, sr, hr⟩ := (G.env.fft ()).fft_eval (out := out) (input := zeroExtended a n) h1 (by simp)
      (fun j hj => by
        rw [zeroExtended_size] at hj
        rw [zeroExtended_gt hj]
        by_cases c : j < k
        · exact (G.D.val _).mpr (by have := h3v j c; rw [← G.hL] at this; omega)
        · rw [gt_oob (by omega)]; exact S.zero.1)
    rw [polyOf_zeroExtended S (by omega)] at hr
    have hr' : ∀ f, f < n → gt r f = sym B a f := fun f hf =>
      G.D.full.inj (hr f hf).1 ((G.D.val _).mpr (hs f).1) (by rw [(hr f hf).2, (hs f).2])
    obtain ⟨o', p', ee, s1, s2, hh⟩ := hpost (output := r) (props := props) (off := off)
      (by omega) h2.ge (fun f hf => by rw [hr' f (by omega)]; exact (hs f).1)
    refine ⟨o', p', ?_, by rw [hno, G.hn]; omega, by rw [hb]; omega, ?_⟩
    · rw [henc]
      unfold FecBase.transform
      rw [G.hn, er, ok_bind, ee]
    · intro f hf
      rw [hb] at hf
      have := hh f hf
      rw [hr' f (by omega)] at this
      exact this
  · intro rows T ids props mem hrows hids _ h3 hprops
    rw [hb] at hrows hids h3
    rw [hsys, if_neg (by simp)] at hids
    have hids' : ValidIds B.n_data n ids := ⟨hids.size, hids.inj, fun i hi => by have := hids.lt i hi; omega⟩
    have hprops' : ∀ i, i < B.n_data → gt props (gt ids i) = ⟨marksOf (fun t => markOf B L (rows t) (gt ids i)) T⟩ := by
      intro i hi
      exact hprops i (gt ids i) (by rw [hb]; exact hi) (by rw [hb]; exact hids.lt i hi) (by rw [hb, hsys]; rfl)
    have env := G.env
    rw [← G.n_data] at env
    obtain ⟨C, eC, hC1, hC2⟩ := FecBase.init_context_dec_spec (B := B) env G.hn (ids := ids) (props := props) mem hids'
      G.rpSize (fun _ i hi => G.rp i hi)
    refine ⟨fun C t => C.Good S B.n_data n len_2k (S.φ B.r) g2 ids ∧ C.props_indices.size = B.n_outputs ∧ ∀ i, i < B.n_data →
      gt C.props_indices (gt ids i) = (marksOf (fun t => markOf B L (rows t) (gt ids i)) t).length,
      C, props.map Properties.sort, by rw [hinit]; exact eC, ⟨hC2 (), by rw [hC1]; simp [h3], ?_⟩, ?_⟩
    · intro i hi
      rw [hC1, gt_replicate (by rw [h3]; exact hids.lt i hi)]; rfl
    · rintro t C out words ht ⟨c1, c2, c3⟩ hout hws hwords
      rw [hb] at hout hws hwords ⊢
      replace hws : B.n_data ≤ words.size := by
        rw [hws, hsys, G.code_len, G.n_data]; simp
      have hrow := hrows t ht
      have hs := fun f => sym_spec G hrow f
      have hwords' : ∀ i, i < B.n_data → gt words i = stored B L (rows t) (gt ids i) := by
        intro i hi
        rw [hwords i hi]
        unfold fragVal; rw [hsys]; rfl
      have hsort : ∀ i, i < B.n_data → gt (props.map Properties.sort) (gt ids i)
          = ⟨marksOf (fun t => markOf B L (rows t) (gt ids i)) T⟩ := by
        intro i hi
        have hl : gt ids i < props.size := by rw [h3]; exact hids.lt i hi
        have h5 := hprops' i hi
        rw [gt_eq hl] at h5
        rw [gt_eq (by simpa using hl), Array.getElem_map, h5, sort_marksOf]
      have hat : ∀ i, i < B.n_data → _ := fun i hi => marksOf_at (f := fun t => markOf B L (rows t) (gt ids i)) ht
        (P := gt (props.map Properties.sort) (gt ids i)) (by rw [hsort i hi])
      have hmk : ∀ i, i < B.n_data → ((gt (props.map Properties.sort) (gt ids i)).is_marked (gt C.props_indices (gt ids i)) t = true
          ↔ L ≤ sym B (rows t) (gt ids i)) := by
        intro i hi
        rw [c3 i hi]
        by_cases hs : L ≤ sym B (rows t) (gt ids i)
        · have := ((hat i hi).1 OOR_MARK (by simp [markOf, hs])).1
          exact ⟨fun _ => hs, fun _ => this⟩
        · have := (hat i hi).2 (by simp only [markOf]; rw [if_neg hs])
          rw [this]; simp [hs]
      have hidsC : C.fragments_ids = ids := c1.idsEq
      have hsplit : ∀ i, i < B.n_data → L ≤ sym B (rows t) (gt ids i) → gt words i + L = sym B (rows t) (gt ids i) := by
        intro i hi hge
        rw [hwords' i hi]
        unfold stored
        have := (hs (gt ids i)).1
        rw [Nat.mod_eq_sub_mod hge, Nat.mod_eq_of_lt (by omega)]
        omega
      obtain ⟨pi, ws, ep, p1, p2, p3⟩ := hprep (C := C) (props := props.map Properties.sort)
        (off := t) (words := words) (N := B.n_outputs) (by rw [hidsC]; exact hids) (by simp [h3]) (by omega) hws (by
          intro i hi h
          rw [hidsC] at h ⊢
          have hs' := (hmk i hi).mp h
          refine ⟨?_, by rw [hsplit i hi hs']; exact (hs _).1⟩
          rw [c3 i hi]
          exact ((hat i hi).1 OOR_MARK (by simp [markOf, hs'])).2)
      rw [hidsC] at p3
      have hws' : ∀ i, i < B.n_data → gt ws i = sym B (rows t) (gt ids i) := by
        intro i hi
        rw [(p3 i hi).1]
        by_cases hs' : L ≤ sym B (rows t) (gt ids i)
        · rw [if_pos ((hmk i hi).mpr hs'), hsplit i hi hs']
        · rw [if_neg (fun h => hs' ((hmk i hi).mp h)), hwords' i hi]
          unfold stored; exact Nat.mod_eq_of_lt (by omega)
      have c1' : ({ C with props_indices := pi } : Ctx).Good S B.n_data n len_2k (S.φ B.r) g2 ids :=
        ⟨c1.len, c1.idsEq, c1.invSize, c1.inv, c1.ASize, c1.A, c1.v1n, c1.v2n, c1.v12, c1.v22⟩
      obtain ⟨C', r, er, sr, pr, gr, vr, hr⟩ := FecBase.decode_apply_spec (B := B) (S := S) env.kpos env.kn env.k2 rfl
        (env.fft ()) (env.fft_2k ()) c1' hids.size hids'.lt
        (fun i hi j hj he => hids.inj i j (by simpa using hi) (by simpa using hj) he) (output := out) (words := ws) hout
        (by omega) (fun i hi => by
          rw [hws' i hi]
          exact (G.D.val _).mpr (hs _).1)
      refine ⟨C', r, ?_, sr, ⟨gr, ?_, ?_⟩, ?_⟩
      · rw [hdec, ep, ok_bind]
        exact er
      · rw [pr]; show pi.size = _; omega
      · intro i hi
        rw [pr]
        show gt pi (gt ids i) = _
        rw [(p3 i hi).2, c3 i hi, marksOf_succ, List.length_append]
        congr 1
        by_cases hs : L ≤ sym B (rows t) (gt ids i)
        · rw [← c3 i hi, if_pos ((hmk i hi).mpr hs)]; simp [markOf, hs]
        · rw [← c3 i hi, if_neg (fun h => hs ((hmk i hi).mp h))]; simp only [markOf]; rw [if_neg hs]; rfl
      · intro i hi
        obtain ⟨q1, q2⟩ := hrow
        have h6 := hr (polyOf S (rows t)) (by
            rw [← q1]; exact polyOf_degree_lt S (rows t)) (fun i hi => by
            rw [hws' i hi, (hs _).2]) i hi
        rw [polyOf_coeff] at h6
        refine G.D.full.inj (vr i hi) ((G.D.val _).mpr ?_) h6
        have h8 := q2 i hi
        rw [← G.hL] at h8
        omega

end FftCode
end Quad
