import Verif.Lemmas.FecUb
import Verif.Props.Ring

/-!
# Fermat-number codes on streams, word by word (C23, C24, C25, C26)

Streams are lists of bytes; a missing stream is `none`.
`RsFnt.mkBase b db sys w k m pkt mem` is the constructor of `RsFnt<T>` with `T`
of `b` bits; `mem` are the contents of uninitialised memory.
`encode_streams_horizontal data outs props mem` returns the output streams with
what was written to them appended, and the properties.
`decode_streams_horizontal datas parities props outs mem` returns the C++
boolean and the output streams.
-/

namespace Quad.Props
open Quad RingModN

/-- the unsigned types the library instantiates `RsFnt` with -/
def WordType (b db : Nat) : Prop := (b = 32 ∧ db = 64) ∨ (b = 64 ∧ db = 128)

/-- a list of bytes -/
def Bytes (l : List Nat) : Prop := ∀ x ∈ l, x < 256

/-- `T` is the number of complete rows of `w`-byte words in `k` streams -/
structure RowCount (w k : Nat) (data : Array (List Nat)) (T : Nat) : Prop where
  full : ∀ i, i < k → T * w ≤ (gt data i).length
  last : ∃ i, i < k ∧ (gt data i).length < (T + 1) * w

/-- number of streams that are not missing -/
def available (a : Array (Option (List Nat))) : Nat := a.toList.countP Option.isSome

/-- the parameters of an FNT code: word size 1 or 2, at least one fragment of
each kind, code length at most `2^(8w)`, and the restriction the constructor
asserts, `2 * n_data < 2^(8w) + 1` (fec_rs_fnt.h:113) -/
structure FntParams (w k m : Nat) : Prop where
  hw : w = 1 ∨ w = 2
  hk : 0 < k
  hm : 0 < m
  len : k + m ≤ 2 ^ (8 * w)
  two : 2 * k ≤ 2 ^ (8 * w)

theorem FntParams.prime {w k m : Nat} (h : FntParams w k m) : (2 ^ (8 * w) + 1).Prime := by
  rcases h.hw with rfl | rfl
  · exact prime257
  · exact prime65537

theorem FntParams.build {b db w k m : Nat} (hT : WordType b db) (h : FntParams w k m) (sys : Bool) (pkt : Nat)
    (mem : Nat → Nat) [Fact (2 ^ (8 * w) + 1).Prime] :
    ∃ B, RsFnt.mkBase b db sys w k m pkt mem = .ok B ∧ B.sys = sys ∧ B.word_size = w ∧ B.pkt_size = pkt ∧
      ∃ (S : B.F.Sim (ZMod (2 ^ (8 * w) + 1))) (n len_2k : Nat) (g g2 : ZMod (2 ^ (8 * w) + 1)) (okLen : Nat → Prop),
        RsFnt.Good B (2 ^ (8 * w) + 1) (8 * w) k m S n len_2k g g2 okLen := by
  have h2 : 2 ^ (8 * w) + 1 ≠ 2 := by
    rcases h.hw with rfl | rfl <;> decide
  refine RsFnt.mkBase_spec sys mem ?_ rfl h2 ?_ ?_ h.hk h.hm h.len h.two
  · rcases h.hw with rfl | rfl <;> decide
  · rcases hT with ⟨rfl, rfl⟩ | ⟨rfl, rfl⟩ <;> rcases h.hw with rfl | rfl <;>
      exact ⟨by decide, by decide, by decide⟩
  · rcases hT with ⟨rfl, rfl⟩ | ⟨rfl, rfl⟩ <;> rfl

/-- C23, for streams coded word by word in non-systematic mode: whatever the
data, encoding succeeds, and decoding any selection of at least `n_data`
fragments with their properties writes the complete words of every data stream.
Missing: packets (`encode_streams_vertical`, blocks) and the systematic mode. -/
theorem C23_streams_horizontal_partial {b db w k m : Nat} (hT : WordType b db) (hP : FntParams w k m) (pkt : Nat)
    (mem : Nat → Nat) {data : Array (List Nat)} {T : Nat} (hk : data.size = k) (hbytes : ∀ i, i < k → Bytes (gt data i))
    (hrows : RowCount w k data T) :
    ∃ B frags props, RsFnt.mkBase b db false w k m pkt mem = .ok B ∧
      (RsFnt.fec B).encode_streams_horizontal data (Array.replicate (k + m) []) (Array.replicate (k + m) .empty) mem
        = .ok (frags, props) ∧
      frags.size = k + m ∧ (∀ f, f < k + m → (gt frags f).length = T * w) ∧
      ∀ (datas pars outs : Array (Option (List Nat))) (props' : Array Properties) (mem' : Nat → Nat),
        pars.size = k + m → props'.size = k + m → outs.size = k →
        (∀ f s, f < k + m → gt pars f = some s → s = gt frags f ∧ gt props' f = gt props f) →
        k ≤ available pars →
        ∃ res, (RsFnt.fec B).decode_streams_horizontal datas pars props' outs mem' = .ok (true, res) ∧
          res.size = k ∧ ∀ i, i < k → gt res i = (gt outs i).map (fun s => s ++ (gt data i).take (T * w)) := by
  have : Fact (2 ^ (8 * w) + 1).Prime := ⟨hP.prime⟩
  obtain ⟨B, eB, hs, hw, _, S, n, l2, g, g2, okL, G⟩ := hP.build hT false pkt mem
  have hws : WordSize B.word_size := by rw [hw]; rcases hP.hw with h | h <;> simp [WordSize, h]
  have H := RsFnt.hspec G hs hws
  have hn : B.n_outputs = k + m := by rw [G.n_outputs, hs]; rfl
  have hkd : B.n_data = k := G.n_data
  have hrow : Rows B.word_size B.n_data (gt data) T := by rw [hw, hkd]; exact ⟨hrows.full, hrows.last⟩
  have hby : ∀ i, i < B.n_data → ∀ x ∈ gt data i, x < 256 := by rw [hkd]; exact hbytes
  obtain ⟨fr, pr, e, s1, s2, hf⟩ := Fec.encode_streams_horizontal_spec H (data := data)
    (outs := Array.replicate (k + m) []) (props := Array.replicate (k + m) .empty) mem (T := T)
    (by show _ = B.n_data; omega) (by show _ = B.n_outputs; simp [hn]) (by show _ = B.n_outputs; simp [hn]) hby hrow
  change fr.size = B.n_outputs at s1
  change ∀ f, f < B.n_outputs → _ at hf
  refine ⟨B, fr, pr, eB, e, by omega, ?_, ?_⟩
  · intro f hf'
    rw [(hf f (by omega)).1, gt_replicate hf', List.nil_append, flat_length]
    show T * B.word_size = _
    rw [hw]
  · intro datas pars outs props' mem' h1 h2 h3 h4 h5
    obtain ⟨res, er, hr⟩ := Fec.decode_streams_horizontal_spec H (D := gt data) (T := T) (datas := datas) (pars := pars)
      (outs := outs) (props := props') mem' hby hrow (fun h => by change B.sys = true at h; rw [hs] at h; cases h)
      (by show _ = B.n_outputs; omega) (by show _ = B.n_outputs; omega) (by show _ = B.n_data; omega)
      (fun h => by change B.sys = true at h; rw [hs] at h; cases h)
      (by
        intro f s hf' hfs
        change f < B.n_outputs at hf'
        obtain ⟨q1, q2⟩ := h4 f s (by omega) hfs
        have := hf f hf'
        rw [gt_replicate (by omega), List.nil_append] at this
        exact ⟨by rw [q1, this.1], by rw [q2, this.2]⟩) (fun _ _ => trivial)
    have hdl : (RsFnt.fec B).base.dataList (datas.map Option.isSome) = [] := by
      unfold FecBase.dataList
      rw [if_neg (by show ¬ B.sys = true; simp [hs])]
    have hpl : (present (pars.map Option.isSome) B.n_outputs).length = available pars := present_eq_avail pars (by omega)
    rw [hdl] at hr
    change if ([] : List Nat).length = B.n_data then _ else if ([] : List Nat).length +
      (present (pars.map Option.isSome) B.n_outputs).length < B.n_data then _ else _ at hr
    have hk0 := hP.hk
    rw [hpl, if_neg (by simp; omega), if_neg (by simp; omega)] at hr
    obtain ⟨r1, r2, r3⟩ := hr
    refine ⟨res.2, by rw [er, ← r1], by rw [r2]; exact hkd, ?_⟩
    intro i hi
    have := r3 i (by show i < B.n_data; omega)
    rw [this]
    show _ = Option.map (fun s => s ++ List.take (T * w) (gt data i)) _
    rw [← hw]; rfl

example : WordType 32 64 ∧ FntParams 1 3 2 ∧ FntParams 2 100 200 := by
  refine ⟨.inl ⟨rfl, rfl⟩, ⟨.inl rfl, ?_, ?_, ?_, ?_⟩, ⟨.inr rfl, ?_, ?_, ?_, ?_⟩⟩ <;> decide

example : RowCount 1 2 #[[1, 2, 3], [4, 5]] 2 := ⟨by decide, 1, by decide, by decide⟩

example : 3 ≤ available #[some [1], none, some [2], none, some [3]] := by decide

/-- C26: with fewer than `n_data` fragments, decoding of streams word by word
returns `false` and writes nothing, for every code of the library and whatever
the fragments contain. -/
theorem C26_horizontal_too_few {Γ : Type} (E : Fec Γ) {datas pars outs : Array (Option (List Nat))} {props : Array Properties}
    (mem : Nat → Nat) (hk : 0 < E.base.n_data) (hd : datas.size = E.base.n_data) (hp : pars.size = E.base.n_outputs)
    (hq : props.size = E.base.n_outputs) (ho : outs.size = E.base.n_data)
    (hfew : (if E.base.sys then available datas else 0) + available pars < E.base.n_data) :
    E.decode_streams_horizontal datas pars props outs mem = .ok (false, outs) := by
  have hsel := E.base.selectFragments_spec hk (data := datas.map Option.isSome) (parities := pars.map Option.isSome) mem
    (fun _ => by simp [hd]) (by simp [hp])
  have h1 : (E.base.dataList (datas.map Option.isSome)).length = if E.base.sys then available datas else 0 := by
    unfold FecBase.dataList
    split
    · exact present_eq_avail datas hd
    · rfl
  have h2 : (present (pars.map Option.isSome) E.base.n_outputs).length = available pars := present_eq_avail pars hp
  rw [h1, h2, if_neg (by omega), if_pos hfew] at hsel
  unfold Fec.decode_streams_horizontal
  by_cases hs : E.base.sys = true
  · simp [hs, cassert, hd, hp, hq, ho, hsel, pure, Except.pure]
  · simp [hs, cassert, hp, hq, ho, hsel, pure, Except.pure]

/-- C26: with all data fragments of a systematic code, decoding of streams word
by word returns `true` and writes nothing. -/
theorem C26_horizontal_all_data {Γ : Type} (E : Fec Γ) {datas pars outs : Array (Option (List Nat))} {props : Array Properties}
    (mem : Nat → Nat) (hk : 0 < E.base.n_data) (hs : E.base.sys = true) (hd : datas.size = E.base.n_data)
    (hp : pars.size = E.base.n_outputs) (hq : props.size = E.base.n_outputs) (ho : outs.size = E.base.n_data)
    (hall : ∀ i, i < E.base.n_data → ∃ s, gt datas i = some s) :
    E.decode_streams_horizontal datas pars props outs mem = .ok (true, outs) := by
  have hsel := E.base.selectFragments_spec hk (data := datas.map Option.isSome) (parities := pars.map Option.isSome) mem
    (fun _ => by simp [hd]) (by simp [hp])
  have h1 : (E.base.dataList (datas.map Option.isSome)).length = E.base.n_data := by
    unfold FecBase.dataList
    rw [if_pos hs]
    unfold present
    rw [List.filter_eq_self.mpr, List.length_range]
    intro i hi
    have hi' := List.mem_range.mp hi
    obtain ⟨s, h⟩ := hall i hi'
    rw [gt_eq (by simp; omega)]
    rw [gt_eq (by omega)] at h
    simp [h]
  rw [if_pos h1] at hsel
  unfold Fec.decode_streams_horizontal
  simp [hs, cassert, hd, hp, hq, ho, hsel, pure, Except.pure]

/-! ### C24 -/

/-- store `T` rows of symbols, one after the other, from empty properties: what
is stored and the properties -/
def storeRows (B : FecBase) (syms : Nat → Array Nat) : Nat → Res (List (Array Nat) × Array Properties)
  | 0 => .ok ([], Array.replicate B.n_outputs .empty)
  | t + 1 => do
    let (l, props) ← storeRows B syms t
    let (stored, props) ← RsFnt.encode_post_process B (syms t) props t
    pure (l ++ [stored], props)

/-- restore the words of `T` rows read from fragments -/
def restoreRows (B : FecBase) (props : Array Properties) (words : Nat → Array Nat) : Nat → Ctx → Res (Ctx × List (Array Nat))
  | 0, C => .ok (C, [])
  | t + 1, C => do
    let (C, l) ← restoreRows B props words t C
    let (C, ws) ← B.decode_prepare C props t (words t)
    pure (C, l ++ [ws])

/-- entries `ids 0, ids 1, ..` of a row -/
def select (row ids : Array Nat) : Array Nat := Array.ofFn (fun i : Fin ids.size => gt row (gt ids i))

/-- C24, word by word: symbols are in `0 .. 2^(8w)`.  What is stored fits `w`
bytes, and restoring the words of any `n_data` distinct fragments, with the
properties as the decoding context sorts them, gives back the symbols.
Missing: systematic mode, where `decode_prepare` on words is undefined
(`C25_horizontal_systematic_undefined`).  Packets: `C24_marks_packets`. -/
theorem C24_marks_horizontal_partial {B : FecBase} {w T : Nat} {syms : Nat → Array Nat} {ids : Array Nat} {C : Ctx}
    (hc : B.F.card = 2 ^ (8 * w) + 1) (hsz : ∀ t, (syms t).size = B.n_outputs)
    (hv : ∀ t f, f < B.n_outputs → gt (syms t) f ≤ 2 ^ (8 * w)) (hk : ids.size = B.n_data)
    (hinj : ∀ i j, i < B.n_data → j < B.n_data → gt ids i = gt ids j → i = j)
    (hlt : ∀ i, i < B.n_data → gt ids i < B.n_outputs) (hC : C.fragments_ids = ids)
    (hCi : C.props_indices = Array.replicate B.n_outputs 0) :
    ∃ stored props, storeRows B syms T = .ok (stored, props) ∧ stored.length = T ∧
      (∀ row ∈ stored, ∀ f, f < B.n_outputs → gt row f < 2 ^ (8 * w)) ∧
      ∃ C', restoreRows B (props.map Properties.sort) (fun t => select (stored.getD t #[]) ids) T C
        = .ok (C', (List.range T).map (fun t => select (syms t) ids)) := by
  set mkf : Nat → Nat → Option Nat := fun f t => if gt (syms t) f = 2 ^ (8 * w) then some OOR_MARK else none with hmkf
  set sto : Nat → Array Nat := fun t => Array.ofFn (fun f : Fin B.n_outputs =>
    if gt (syms t) f = 2 ^ (8 * w) then 0 else gt (syms t) f) with hsto
  set prs : Nat → Array Properties := fun t => Array.ofFn (fun f : Fin B.n_outputs => ⟨marksOf (mkf f) t⟩) with hprs
  have hstore : ∀ T, storeRows B syms T = .ok ((List.range T).map sto, prs T) := by
    intro T
    induction T with
    | zero =>
      simp only [storeRows, List.range_zero, List.map_nil]
      congr 2
      apply gt_ext (by simp [hprs])
      intro i hi
      rw [gt_replicate (by simpa using hi)]
      simp only [hprs]
      rw [gt_ofFn (by simpa using hi)]
      rfl
    | succ T ih =>
      obtain ⟨o, q, e, s1, s2, h⟩ := RsFnt.post_process_spec (B := B) (e := 8 * w) (off := T) hc (output := syms T)
        (props := prs T) (hsz T).ge (by simp [hprs]) (hv T)
      have ho : o = sto T := by
        apply gt_ext (by simp [hsto, s1, hsz])
        intro f hf
        rw [s1, hsz] at hf
        rw [(h f hf).1]
        simp only [hsto]
        rw [gt_ofFn hf]
      have hq : q = prs (T + 1) := by
        apply gt_ext (by rw [s2]; simp [hprs])
        intro f hf
        rw [s2] at hf
        have hf' : f < B.n_outputs := by simpa [hprs] using hf
        rw [(h f hf').2]
        simp only [hprs]
        rw [gt_ofFn hf', gt_ofFn hf']
        exact addMark_marksOf (mkf f) T
      simp only [storeRows, ih, ok_bind, e, ho, hq, List.range_succ, List.map_append, List.map_cons, List.map_nil]
      rfl
  refine ⟨_, _, hstore T, by simp, ?_, ?_⟩
  · intro row hrow f hf
    obtain ⟨t, _, rfl⟩ := List.mem_map.mp hrow
    simp only [hsto]
    rw [gt_ofFn hf]
    have := hv t f hf
    simp only
    split
    · positivity
    · omega
  · have hsel : ∀ t, t < T → select (((List.range T).map sto).getD t #[]) ids = select (sto t) ids := by
      intro t ht
      simp [List.getD, ht]
    have hget : ∀ (row : Array Nat) i, i < B.n_data → gt (select row ids) i = gt row (gt ids i) := by
      intro row i hi
      unfold select
      rw [gt_ofFn (by omega)]
    have hsize : ∀ row : Array Nat, (select row ids).size = B.n_data := by intro row; simp [select, hk]
    have key : ∀ t, t ≤ T → ∃ pi, restoreRows B ((prs T).map Properties.sort)
        (fun t => select (((List.range T).map sto).getD t #[]) ids) t C
          = .ok ({ C with props_indices := pi }, (List.range t).map (fun t => select (syms t) ids)) ∧
        pi.size = B.n_outputs ∧ ∀ i, i < B.n_data → gt pi (gt ids i) = (marksOf (mkf (gt ids i)) t).length := by
      intro t
      induction t with
      | zero =>
        intro _
        refine ⟨C.props_indices, by simp [restoreRows], by simp [hCi], ?_⟩
        intro i hi
        rw [hCi, gt_replicate (hlt i hi)]
        rfl
      | succ t ih =>
        intro ht
        obtain ⟨pi, e, s, h⟩ := ih (by omega)
        have hP : ∀ i, i < B.n_data → gt ((prs T).map Properties.sort) (gt ids i) = ⟨marksOf (mkf (gt ids i)) T⟩ := by
          intro i hi
          have hl := hlt i hi
          rw [gt_eq (by simpa [hprs] using hl), Array.getElem_map]
          simp only [hprs, Array.getElem_ofFn]
          exact sort_marksOf _ _
        have hat : ∀ i, i < B.n_data → _ := fun i hi => marksOf_at (f := mkf (gt ids i)) (show t < T by omega)
          (P := gt ((prs T).map Properties.sort) (gt ids i)) (by rw [hP i hi])
        have hmk : ∀ i, i < B.n_data → ((gt ((prs T).map Properties.sort) (gt ids i)).is_marked (gt pi (gt ids i)) t = true
            ↔ gt (syms t) (gt ids i) = 2 ^ (8 * w)) := by
          intro i hi
          rw [h i hi]
          by_cases hs : gt (syms t) (gt ids i) = 2 ^ (8 * w)
          · exact ⟨fun _ => hs, fun _ => ((hat i hi).1 OOR_MARK (by simp [hmkf, hs])).1⟩
          · rw [(hat i hi).2 (by simp [hmkf, hs])]; simp [hs]
        obtain ⟨pi', ws, e', s1, s2, h'⟩ := FecBase.decode_prepare_spec (B := B) (C := { C with props_indices := pi })
          (props := (prs T).map Properties.sort) (off := t) (words := select (sto t) ids) (N := B.n_outputs)
          (by simp only [hC]; exact ⟨hk, hinj, hlt⟩) (by simp [hprs]) (by simp only; omega) (by rw [hsize])
          (by
            intro i hi hm
            simp only [hC] at hm ⊢
            have hs := (hmk i hi).mp hm
            rw [h i hi]
            exact ((hat i hi).1 OOR_MARK (by simp [hmkf, hs])).2)
        simp only [hC] at h'
        refine ⟨pi', ?_, by simp only at s1; omega, ?_⟩
        · simp only [restoreRows]
          rw [e, ok_bind]
          simp only
          rw [hsel t (by omega), e', ok_bind, List.range_succ, List.map_append]
          have hws : ws = select (syms t) ids := by
            apply gt_ext (by rw [s2, hsize, hsize])
            intro i hi
            rw [s2, hsize] at hi
            rw [(h' i hi).1, hget _ i hi, hget _ i hi]
            by_cases hs : gt (syms t) (gt ids i) = 2 ^ (8 * w)
            · rw [if_pos ((hmk i hi).mpr hs), hc, hs]; rfl
            · rw [if_neg (fun hm => hs ((hmk i hi).mp hm))]
              simp only [hsto]
              rw [gt_ofFn (hlt i hi)]
              simp only
              rw [if_neg hs]
          rw [hws]
          rfl
        · intro i hi
          rw [(h' i hi).2, marksOf_succ, List.length_append, h i hi]
          congr 1
          rw [← h i hi]
          by_cases hs : gt (syms t) (gt ids i) = 2 ^ (8 * w)
          · rw [if_pos ((hmk i hi).mpr hs)]; simp [hmkf, hs]
          · rw [if_neg (fun hm => hs ((hmk i hi).mp hm))]; simp [hmkf, hs]
    obtain ⟨pi, e, _⟩ := key T le_rfl
    exact ⟨_, e⟩

example : ∃ B C, RsFnt.mkBase 32 64 false 1 3 2 8 (fun _ => 0) = .ok B ∧ B.F.card = 2 ^ (8 * 1) + 1 ∧ B.n_outputs = 5 ∧
    B.n_data = 3 ∧ Ctx.fragments_ids C = #[0, 2, 4] ∧ C.props_indices = Array.replicate B.n_outputs 0 := by
  have : Fact (2 ^ (8 * 1) + 1).Prime := ⟨prime257⟩
  obtain ⟨B, eB, hs, hw, _, S, n, l2, g, g2, okL, G⟩ :=
    FntParams.build (b := 32) (db := 64) (w := 1) (k := 3) (m := 2) (.inl ⟨rfl, rfl⟩) (by
      refine ⟨.inl rfl, ?_, ?_, ?_, ?_⟩ <;> decide) false 8 (fun _ => 0)
  refine ⟨B, ⟨none, Array.replicate B.n_outputs 0, 0, 0, 0, #[0, 2, 4], ⟨#[], 0⟩, #[], #[], #[], #[], #[], #[]⟩, eB, G.card,
    by rw [G.n_outputs, hs]; rfl, G.n_data, rfl, rfl⟩

/-! ### C25: the systematic mode and streams coded word by word -/

/-- In systematic mode, with `n_parities ≤ n_data`, decoding streams word by
word when some data fragment is missing is undefined behaviour, as soon as the
fragments hold one word: `decode_prepare` indexes the properties of the
parities by the fragment number (fec_base.h:806-808). -/
theorem C25_horizontal_systematic_undefined {b db w k m : Nat} (hT : WordType b db) (hP : FntParams w k m) (hmk : m ≤ k)
    (pkt : Nat) (mem mem' : Nat → Nat) {datas pars outs : Array (Option (List Nat))} {props : Array Properties}
    (hd : datas.size = k) (hp : pars.size = m) (hq : props.size = m) (ho : outs.size = k)
    (hlost : available datas < k) (henough : k ≤ available datas + available pars)
    (hlen : ∀ i s, gt datas i = some s ∨ gt pars i = some s → w ≤ s.length) :
    ∃ B, RsFnt.mkBase b db true w k m pkt mem = .ok B ∧
      (RsFnt.fec B).decode_streams_horizontal datas pars props outs mem' = .error .ub := by
  have : Fact (2 ^ (8 * w) + 1).Prime := ⟨hP.prime⟩
  obtain ⟨B, eB, hs, hw, _, S, n, l2, g, g2, okL, G⟩ := hP.build hT true pkt mem
  have hws : WordSize w := by rcases hP.hw with h | h <;> simp [WordSize, h]
  have hn : B.n_outputs = m := by rw [G.n_outputs, hs]; rfl
  have hkd : B.n_data = k := G.n_data
  refine ⟨B, eB, ?_⟩
  have hdl : B.dataList (datas.map Option.isSome) = present (datas.map Option.isSome) k := by
    unfold FecBase.dataList; rw [hs, hkd]; rfl
  have hdlen : (present (datas.map Option.isSome) k).length = available datas := present_eq_avail datas hd
  have hplen : (present (pars.map Option.isSome) m).length = available pars := present_eq_avail pars hp
  have hsel := B.selectFragments_spec (by rw [hkd]; exact hP.hk) (data := datas.map Option.isSome)
    (parities := pars.map Option.isSome) mem' (fun _ => by simp [hd, hkd]) (by simp [hp, hn])
  have hpl : B.parList (datas.map Option.isSome) (pars.map Option.isSome)
      = (present (pars.map Option.isSome) m).take (k - available datas) := by
    unfold FecBase.parList; rw [hdl, hdlen, hkd, hn]
  rw [hdl, hdlen, hpl, hkd, hn, hplen, if_neg (by omega), if_neg (by omega)] at hsel
  set pl := (present (pars.map Option.isSome) m).take (k - available datas) with hpld
  set dl := present (datas.map Option.isSome) k with hdld
  set nd := available datas with hnd
  have hpll : pl.length = k - nd := by rw [hpld, List.length_take, hplen]; omega
  set ids : Array Nat := (dl ++ pl.map (fun i => if B.sys then k + i else i)).toArray with hids
  have hidl : ∀ i, i < nd → gt ids i = dl.getD i 0 := by
    intro i hi
    rw [hids, Fec.gt_toArray]
    simp [List.getD, List.getElem?_append_left (show i < dl.length by omega)]
  have hidr : ∀ i, nd ≤ i → i < k → gt ids i = k + pl.getD (i - nd) 0 := by
    intro i hi hik
    rw [hids, Fec.gt_toArray]
    have : i - nd < pl.length := by omega
    simp [List.getD, List.getElem?_append_right (show dl.length ≤ i by omega), hdlen, this, hs]
  have hpmem : ∀ i, i < pl.length → pl.getD i 0 < m ∧ ∃ s, gt pars (pl.getD i 0) = some s := by
    intro i hi
    rw [List.getD_eq_getElem _ _ hi]
    have h : pl[i] ∈ present (pars.map Option.isSome) m := List.mem_of_mem_take (List.getElem_mem hi)
    obtain ⟨q1, q2⟩ := mem_present.mp h
    exact ⟨q1, (Fec.isSome_mask q2).2⟩
  have hdmem : ∀ i, i < nd → dl.getD i 0 < k ∧ ∃ s, gt datas (dl.getD i 0) = some s := by
    intro i hi
    rw [List.getD_eq_getElem _ _ (by omega)]
    have h : dl[i]'(by omega) ∈ present (datas.map Option.isSome) k := List.getElem_mem _
    obtain ⟨q1, q2⟩ := mem_present.mp h
    exact ⟨q1, (Fec.isSome_mask q2).2⟩
  have hdnd : dl.Nodup := present_nodup _ _
  have hpnd : pl.Nodup := (present_nodup _ _).sublist (List.take_sublist _ _)
  have hle := G.le
  have hidn : dl.length = nd := hdlen
  have hvalid : ValidIds B.n_data n ids := by
    refine ⟨by rw [hids]; simp; omega, ?_, ?_⟩
    · rw [hkd]
      intro i j hi hj he
      rcases Nat.lt_or_ge i nd with hi' | hi' <;> rcases Nat.lt_or_ge j nd with hj' | hj'
      · rw [hidl i hi', hidl j hj'] at he
        exact Fec.getD_ne_of_nodup hdnd (by omega) (by omega) he
      · rw [hidl i hi', hidr j hj' hj] at he
        have := (hdmem i hi').1
        omega
      · rw [hidr i hi' hi, hidl j hj'] at he
        have := (hdmem j hj').1
        omega
      · rw [hidr i hi' hi, hidr j hj' hj] at he
        have := Fec.getD_ne_of_nodup hpnd (i := i - nd) (j := j - nd) (by omega) (by omega) (by omega)
        omega
    · rw [hkd]
      intro i hi
      rcases Nat.lt_or_ge i nd with hi' | hi'
      · rw [hidl i hi']
        have := (hdmem i hi').1
        omega
      · rw [hidr i hi' hi]
        have := (hpmem (i - nd) (by omega)).1
        omega
  have env := G.env
  rw [← hkd] at env
  obtain ⟨C, eC, hC1, hC2⟩ := FecBase.init_context_dec_spec (B := B) env G.hn (ids := ids) (props := props) mem' hvalid
    G.rpSize (fun _ i hi => by
      refine ⟨(G.V _).mpr (G.rp i hi).1, ?_⟩
      rw [G.φ]; exact (G.rp i hi).2)
  have hCids : C.fragments_ids = ids := (hC2 ()).idsEq
  -- the reads of the first row succeed
  choose sd hsd using fun i : Fin nd => (hdmem i i.2).2
  choose sp hsp using fun i : Fin pl.length => (hpmem i i.2).2
  obtain ⟨d1, w1, c1, e1, _, z1, hc1, _⟩ := readRow_spec (w := w) (count := nd) (dst := 0) (idx := fun i => rd ids i)
    (ix := fun i => gt ids i) (streams := datas)
    (words := Array.replicate (fresh mem' k).size 0)
    (R := fun i => if h : i < nd then sd ⟨i, h⟩ else []) hws
    (fun i hi => rd_gt (by rw [hvalid.size]; omega))
    (fun i j hi hj he => hvalid.inj i j (by omega) (by omega) he)
    (fun i hi => by rw [hidl i hi, hd]; exact (hdmem i hi).1)
    (fun i hi => by rw [hidl i hi, dif_pos hi]; exact hsd ⟨i, hi⟩) (by simp; omega)
  have hc1' : c1 = true := hc1.mpr (fun i hi => by
    rw [dif_pos hi]; exact hlen _ _ (.inl (hsd ⟨i, hi⟩)))
  subst hc1'
  obtain ⟨d2, w2, c2, e2, _, z2, hc2, _⟩ := readRow_spec (w := w) (count := k - nd) (dst := nd)
    (idx := fun i => rd pl.toArray i) (ix := fun i => gt pl.toArray i) (streams := pars) (words := w1)
    (R := fun i => if h : i < pl.length then sp ⟨i, h⟩ else []) hws
    (fun i hi => rd_gt (by simp; omega))
    (fun i j hi hj he => by
      rw [Fec.gt_toArray, Fec.gt_toArray] at he
      exact Fec.getD_ne_of_nodup hpnd (by omega) (by omega) he)
    (fun i hi => by rw [Fec.gt_toArray, hp]; exact (hpmem i (by omega)).1)
    (fun i hi => by rw [Fec.gt_toArray, dif_pos (by omega)]; exact hsp ⟨i, by omega⟩) (by rw [z1]; simp; omega)
  have hc2' : c2 = true := hc2.mpr (fun i hi => by
    rw [dif_pos (by omega)]; exact hlen _ _ (.inr (hsp ⟨i, by omega⟩)))
  subst hc2'
  have hub : ∀ o ws, B.decode C o (props.map Properties.sort) 0 ws = .error .ub := by
    intro o ws
    unfold FecBase.decode
    rw [FecBase.decode_prepare_ub (i := nd) (by omega) (by rw [hCids, hvalid.size]) (by
      rw [hCids, hidr nd le_rfl (by omega)]; simp; omega)]
    rfl
  have hbase : (RsFnt.fec B).base = B := rfl
  have hinit : (RsFnt.fec B).init_context_dec = B.init_context_dec := rfl
  have hdec : (RsFnt.fec B).decode = B.decode := rfl
  unfold Fec.decode_streams_horizontal
  simp only [hbase, hinit, hs, if_true, cassert, hd, hp, hq, ho, hkd, hn, decide_true, ok_bind, hsel]
  rw [eC, ok_bind]
  simp only
  unfold Fec.decLoop
  simp only [hbase, hdec, hs, if_true, hw, hkd]
  rw [e1, ok_bind]
  simp only
  rw [if_pos trivial, e2, ok_bind]
  simp only
  rw [if_pos trivial, hub]
  rfl

example : available #[some [7], none] < 2 ∧ 2 ≤ available #[some [7], none] + available #[some [9], some [1]] := by decide

end Quad.Props
