import Verif.Lemmas.FecSelect
import Verif.Lemmas.FecFftBuild
import Verif.Lemmas.FecGf2nRec
import Verif.Lemmas.FecFftAddBuild
import Verif.Lemmas.FecAny
import Verif.Spec.AnyWords

/-!
# Decoding word by word of fragments with any contents
-/

namespace Quad
namespace Fec
variable {Γ : Type} {E : Fec Γ}

/-- the stream of fragment `g`: in systematic mode the first `k` are the data -/
def fragStream (sys : Bool) (k : Nat) (datas pars : Array (Option (List Nat))) (g : Nat) : List Nat :=
  if sys then (if g < k then (gt datas g).getD [] else (gt pars (g - k)).getD []) else (gt pars g).getD []

/-- decoding of streams that may contain anything: it is enough that the words of each row can be decoded -/
theorem decode_streams_horizontal_any (hw : WordSize E.base.word_size) (hk : 0 < E.base.n_data)
    (hcl : E.base.code_len = E.base.n_data + E.base.n_parities) {T : Nat} {rows : Nat → Array Nat}
    {datas pars outs : Array (Option (List Nat))} {props : Array Properties} (mem : Nat → Nat)
    (h1 : E.base.sys = true → datas.size = E.base.n_data) (h2 : pars.size = E.base.n_outputs)
    (h3 : props.size = E.base.n_outputs) (h4 : outs.size = E.base.n_data)
    (hall : (E.base.dataList (datas.map Option.isSome)).length ≠ E.base.n_data)
    (hfew : ¬ (E.base.dataList (datas.map Option.isSome)).length +
          (present (pars.map Option.isSome) E.base.n_outputs).length < E.base.n_data)
    (hS1 : ∀ i, i < E.base.n_data → T * E.base.word_size ≤ (fragStream E.base.sys E.base.n_data datas pars
      (gt (E.base.idList (datas.map Option.isSome) (pars.map Option.isSome)).toArray i)).length)
    (hS2 : ∃ i, i < E.base.n_data ∧ (fragStream E.base.sys E.base.n_data datas pars
      (gt (E.base.idList (datas.map Option.isSome) (pars.map Option.isSome)).toArray i)).length < (T + 1) * E.base.word_size)
    (hctx : ValidIds E.base.n_data (if E.base.sys then E.base.n_data + E.base.n_outputs else E.base.n_outputs)
        (E.base.idList (datas.map Option.isSome) (pars.map Option.isSome)).toArray →
      ∃ (Good : Γ → Nat → Prop) (C : Γ) (props' : Array Properties),
        E.init_context_dec (E.base.idList (datas.map Option.isSome) (pars.map Option.isSome)).toArray props mem = .ok (C, props') ∧ Good C 0 ∧
        ∀ {t : Nat} {C : Γ} {out words : Array Nat}, t < T → Good C t → out.size = E.base.n_data →
          words.size = (if E.base.sys then E.base.n_data else E.base.code_len) →
          (∀ i, i < E.base.n_data → gt words i = wordAt E.base.word_size (fragStream E.base.sys E.base.n_data datas pars
            (gt (E.base.idList (datas.map Option.isSome) (pars.map Option.isSome)).toArray i)) t) →
          ∃ C' r, E.decode C out props' t words = .ok (C', r) ∧ r.size = E.base.n_data ∧ Good C' (t + 1) ∧
            ∀ i, i < E.base.n_data → gt r i = gt (rows t) i) :
    ValidIds E.base.n_data (if E.base.sys then E.base.n_data + E.base.n_outputs else E.base.n_outputs)
        (E.base.idList (datas.map Option.isSome) (pars.map Option.isSome)).toArray ∧
    ∃ outs', E.decode_streams_horizontal datas pars props outs mem = .ok (true, outs') ∧ outs'.size = E.base.n_data ∧
      ∀ i, i < E.base.n_data → gt outs' i = (gt outs i).map (fun s => s ++ flat E.base.word_size (fun t => gt (rows t) i) T) := by
  have hwp := hw.pos
  have hsel := E.base.selectFragments_spec hk (data := datas.map Option.isSome) (parities := pars.map Option.isSome) mem
    (fun h => by simp [h1 h]) (by simp [h2])
  set k := E.base.n_data with hkd
  set w := E.base.word_size with hwd
  set dl := E.base.dataList (datas.map Option.isSome) with hdl
  set pl := E.base.parList (datas.map Option.isSome) (pars.map Option.isSome) with hpl
  have hred : ∀ (f : Select → Res (Bool × Array (Option (List Nat)))),
      (do
        if E.base.sys then cassert (decide (datas.size = k)) else pure ()
        cassert (decide (pars.size = E.base.n_outputs))
        cassert (decide (props.size = E.base.n_outputs))
        cassert (decide (outs.size = k))
        let sel ← E.base.selectFragments (datas.map Option.isSome) (pars.map Option.isSome) mem
        f sel) = (E.base.selectFragments (datas.map Option.isSome) (pars.map Option.isSome) mem >>= f) := by
    intro f
    by_cases hs : E.base.sys = true
    · simp [hs, cassert, h1 hs, h2, h3, h4]
    · simp only [hs, Bool.false_eq_true, if_false, cassert, h2, h3, h4, decide_true, if_true]
      rfl
  have hgo : E.decode_streams_horizontal datas pars props outs mem =
      (E.base.selectFragments (datas.map Option.isSome) (pars.map Option.isSome) mem >>= fun sel =>
        match sel with
        | .allData => pure (true, outs)
        | .tooFew => pure (false, outs)
        | .use ids apar nd => do
          let n_words := if E.base.sys then k else E.base.code_len
          let (C, props) ← E.init_context_dec ids props mem
          let outs ← E.decLoop ids apar nd (maxLen datas + maxLen pars + 2) datas pars outs props C
            (fresh mem n_words) (fresh mem k) 0
          pure (true, outs)) := hred _
  rw [hgo, hsel, ok_bind]
  simp only [if_neg hall, if_neg hfew]
  have hdle : dl.length ≤ k := E.base.dataList_length_le _
  have hpll : pl.length = k - dl.length := by
    rw [hpl]; unfold FecBase.parList; rw [List.length_take, ← hdl]; omega
  have hpmem : ∀ i, i < pl.length → pl.getD i 0 < E.base.n_outputs ∧ ∃ s, gt pars (pl.getD i 0) = some s := by
    intro i hi
    rw [List.getD_eq_getElem _ _ hi]
    have h : pl[i] ∈ present (pars.map Option.isSome) E.base.n_outputs := List.mem_of_mem_take (List.getElem_mem hi)
    obtain ⟨q1, q2⟩ := mem_present.mp h
    exact ⟨q1, (isSome_mask q2).2⟩
  have hpnd : pl.Nodup := (present_nodup _ _).sublist (List.take_sublist _ _)
  have hdmem : ∀ i, i < dl.length → E.base.sys = true ∧ dl.getD i 0 < k ∧ ∃ s, gt datas (dl.getD i 0) = some s := by
    intro i hi
    have hs : E.base.sys = true := by
      by_contra h
      rw [hdl] at hi; unfold FecBase.dataList at hi; rw [if_neg h] at hi; simp at hi
    refine ⟨hs, ?_⟩
    rw [List.getD_eq_getElem _ _ hi]
    have h : dl[i] ∈ present (datas.map Option.isSome) k := by
      have he : ∀ x, x ∈ dl → x ∈ present (datas.map Option.isSome) k := by
        rw [hdl]; unfold FecBase.dataList; rw [if_pos hs]; exact fun x hx => hx
      exact he _ (List.getElem_mem hi)
    obtain ⟨q1, q2⟩ := mem_present.mp h
    exact ⟨q1, (isSome_mask q2).2⟩
  have hdnd : dl.Nodup := by
    rw [hdl]; unfold FecBase.dataList
    split
    · exact present_nodup _ _
    · simp
  set ids : Array Nat := (dl ++ pl.map (fun i => if E.base.sys then k + i else i)).toArray with hids
  have hidl : ∀ i, i < dl.length → gt ids i = dl.getD i 0 := by
    intro i hi
    rw [hids, gt_toArray]
    simp [List.getD, List.getElem?_append_left hi]
  have hidr : ∀ i, dl.length ≤ i → i < k → gt ids i = (if E.base.sys then k + pl.getD (i - dl.length) 0 else pl.getD (i - dl.length) 0) := by
    intro i hi hik
    rw [hids, gt_toArray]
    have : i - dl.length < pl.length := by omega
    simp [List.getD, List.getElem?_append_right hi, this]
  have hnout : E.base.sys = true ∨ (E.base.sys = false ∧ dl.length = 0) := by
    by_cases hs : E.base.sys = true
    · exact .inl hs
    · refine .inr ⟨by simpa using hs, ?_⟩
      rw [hdl]; unfold FecBase.dataList; rw [if_neg hs]; rfl
  have hvalid : ValidIds k (if E.base.sys then k + E.base.n_outputs else E.base.n_outputs) ids := by
    refine ⟨by rw [hids]; simp; omega, ?_, ?_⟩
    · intro i j hi hj he
      rcases Nat.lt_or_ge i dl.length with hi' | hi' <;> rcases Nat.lt_or_ge j dl.length with hj' | hj'
      · rw [hidl i hi', hidl j hj'] at he
        exact getD_ne_of_nodup hdnd hi' hj' he
      · rw [hidl i hi', hidr j hj' hj, if_pos (hdmem i hi').1] at he
        have := (hdmem i hi').2.1
        omega
      · rw [hidr i hi' hi, hidl j hj', if_pos (hdmem j hj').1] at he
        have := (hdmem j hj').2.1
        omega
      · rw [hidr i hi' hi, hidr j hj' hj] at he
        have he' : pl.getD (i - dl.length) 0 = pl.getD (j - dl.length) 0 := by
          by_cases hs : E.base.sys = true
          · rw [if_pos hs, if_pos hs] at he; omega
          · rw [if_neg hs, if_neg hs] at he; exact he
        have := getD_ne_of_nodup hpnd (by omega) (by omega) he'
        omega
    · intro i hi
      rcases Nat.lt_or_ge i dl.length with hi' | hi'
      · rw [hidl i hi', if_pos (hdmem i hi').1]
        have := (hdmem i hi').2.1
        omega
      · rw [hidr i hi' hi]
        have := (hpmem (i - dl.length) (by omega)).1
        split <;> omega
  have hidsE : (E.base.idList (datas.map Option.isSome) (pars.map Option.isSome)).toArray = ids := rfl
  rw [hidsE] at hS1 hS2 hctx ⊢
  refine ⟨hvalid, ?_⟩
  obtain ⟨Good, C, props', eC, hG0, hdec⟩ := hctx hvalid
  set S : Nat → List Nat := fun i => fragStream E.base.sys k datas pars (gt ids i) with hS
  have hSd : ∀ i, i < dl.length → gt datas (gt ids i) = some (S i) := by
    intro i hi
    obtain ⟨q1, q2, s, q3⟩ := hdmem i hi
    simp only [hS, fragStream]
    rw [hidl i hi, if_pos q1, if_pos q2, q3]; rfl
  have hSp : ∀ i, i < k - dl.length → gt pars (pl.getD i 0) = some (S (dl.length + i)) := by
    intro i hi
    obtain ⟨q1, s, q2⟩ := hpmem i (by omega)
    simp only [hS, fragStream]
    rw [hidr (dl.length + i) (by omega) (by omega), Nat.add_sub_cancel_left]
    by_cases hs : E.base.sys = true
    · simp only [hs, if_true]
      rw [if_neg (by omega), Nat.add_sub_cancel_left, q2]; rfl
    · simp only [hs, if_false, Bool.false_eq_true]
      rw [q2]; rfl
  obtain ⟨outs', eo, so, ho⟩ := decLoop_spec (E := E) (k := k) (nd := dl.length) (w := w) (T := T) (N := if E.base.sys then k else E.base.code_len) (rows := rows)
    (ids := ids) (apar := pl.toArray) (props := props') (Good := Good) (S := S) (O := gt outs) (sys := E.base.sys)
    hw rfl rfl rfl (by split <;> first | exact le_rfl | (rw [hcl]; omega)) (by omega) (fun h => hnout.elim (fun h' => absurd (h.symm.trans h') (by simp)) (fun h' => h'.2))
    (fun i j hi hj he => by
      rw [hidl i hi, hidl j hj] at he
      exact getD_ne_of_nodup hdnd hi hj he) (by rw [hvalid.size]; omega)
    (fun i j hi hj he => by
      rw [gt_toArray, gt_toArray] at he
      exact getD_ne_of_nodup hpnd (by omega) (by omega) he) (by simp; omega)
    hS1 hS2
    (fun {t C out words} ht hC h5 h6 h7 => hdec ht hC h5 h6 h7)
    (d := T) (t := 0) (fuel := maxLen datas + maxLen pars + 2) (datas := datas) (pars := pars) (outs := outs) (C := C)
    (words := fresh mem (if E.base.sys then k else E.base.code_len)) (output := fresh mem k) (by omega) (by
      have h5 := maxLen_ge (hSp 0 (by omega))
      have h6 := hS1 dl.length (by omega)
      simp only [Nat.add_zero] at h5
      have h7 : T * w ≤ (S dl.length).length := h6
      have : T * 1 ≤ T * w := Nat.mul_le_mul_left _ hwp
      omega)
    (fun i hi => by
      obtain ⟨q1, q2, s, q3⟩ := hdmem i hi
      exact ⟨by rw [hidl i hi, h1 q1]; exact q2, by rw [hSd i hi]; simp⟩)
    (fun i hi => by
      obtain ⟨q1, s, q2⟩ := hpmem i (by omega)
      rw [gt_toArray]
      exact ⟨by rw [h2]; exact q1, by rw [hSp i hi]; simp⟩)
    h4 (fun i hi => by simp [flat_zero]) hG0 (by rw [fresh_size]) (by simp)
  refine ⟨outs', ?_, so, ho⟩
  rw [eC, ok_bind]
  simp only
  rw [eo, ok_bind]; rfl

/-! ### codes without marks whose symbols are words: every choice of words is that of exactly one row -/

/-- properties do not matter to the decoder -/
structure PropsFree (E : Fec Γ) : Prop where
  init : ∀ {ids : Array Nat} {p q : Array Properties} {mem : Nat → Nat} {C : Γ} {p' : Array Properties}, p.size = q.size →
    E.init_context_dec ids p mem = .ok (C, p') → ∃ q', E.init_context_dec ids q mem = .ok (C, q')
  dec : ∀ (C : Γ) (out : Array Nat) (p q : Array Properties) (t t' : Nat) (words : Array Nat), E.decode C out p t words = E.decode C out q t' words

variable {st : Array Nat → Nat → Nat} {A : Array Nat → Prop}

theorem marksOf_none (T : Nat) : marksOf (fun _ => none) T = [] := by
  unfold marksOf
  simp

theorem row_inj (hE : E.HSpec st (fun _ _ => none) A) {ids : Array Nat}
    (hv : ValidIds E.base.n_data (if E.base.sys then E.base.n_data + E.base.n_outputs else E.base.n_outputs) ids) (hA : A ids)
    {a b : Array Nat} (ha : IsRow E.base.word_size E.base.n_data a) (hb : IsRow E.base.word_size E.base.n_data b)
    (h : ∀ i, i < E.base.n_data → fragVal E.base.sys E.base.n_data st a (gt ids i) = fragVal E.base.sys E.base.n_data st b (gt ids i)) :
    ∀ i, i < E.base.n_data → gt a i = gt b i := by
  -- both rows are decoded from the same words, one after the other
  obtain ⟨Good, C, p', e, g0, hd⟩ := hE.dec (rows := fun t => if t = 0 then a else b) (T := 1) (ids := ids)
    (props := Array.replicate E.base.n_outputs .empty) (fun _ => 0)
    (fun t ht => by rw [if_pos (by omega)]; exact ha) hv hA (by simp) (fun i f hi hf _ => by
      rw [gt_replicate hf, marksOf_none]; rfl)
  obtain ⟨Good', C', p'', e', g0', hd'⟩ := hE.dec (rows := fun t => b) (T := 1) (ids := ids)
    (props := Array.replicate E.base.n_outputs .empty) (fun _ => 0)
    (fun t ht => hb) hv hA (by simp) (fun i f hi hf _ => by
      rw [gt_replicate hf, marksOf_none]; rfl)
  rw [e] at e'
  have e2 := Except.ok.inj e'
  cases e2
  set N := (if E.base.sys then E.base.n_data else E.base.code_len) with hN
  have hNk : E.base.n_data ≤ N := by rw [hN, hE.cl]; split <;> omega
  set ws : Array Nat := Array.ofFn (fun i : Fin N => fragVal E.base.sys E.base.n_data st a (gt ids i)) with hws
  have hg : ∀ i, i < E.base.n_data → gt ws i = fragVal E.base.sys E.base.n_data st a (gt ids i) := by
    intro i hi
    rw [hws, gt_ofFn (by omega)]
  obtain ⟨_, r, er, _, _, hr⟩ := hd (t := 0) (out := Array.replicate E.base.n_data 0) (words := ws) (by omega) g0 (by simp) (by simp [hws]) hg
  obtain ⟨_, r', er', _, _, hr'⟩ := hd' (t := 0) (out := Array.replicate E.base.n_data 0) (words := ws) (by omega) g0' (by simp) (by simp [hws])
    (fun i hi => by rw [hg i hi, h i hi])
  rw [er] at er'
  have e3 := Except.ok.inj er'
  cases e3
  intro i hi
  have := hr i hi
  rw [if_pos rfl] at this
  rw [← this, hr' i hi]

theorem fragVal_lt (hE : E.HSpec st (fun _ _ => none) A) {a : Array Nat} (ha : IsRow E.base.word_size E.base.n_data a) {g : Nat}
    (hg : g < if E.base.sys then E.base.n_data + E.base.n_outputs else E.base.n_outputs) :
    fragVal E.base.sys E.base.n_data st a g < 256 ^ E.base.word_size := by
  unfold fragVal
  by_cases hs : E.base.sys = true
  · rw [if_pos hs] at hg ⊢
    split
    · exact ha.2 _ ‹_›
    · exact hE.lt ha (by omega)
  · rw [if_neg hs] at hg ⊢
    exact hE.lt ha hg

theorem row_surj (hE : E.HSpec st (fun _ _ => none) A) {ids : Array Nat}
    (hv : ValidIds E.base.n_data (if E.base.sys then E.base.n_data + E.base.n_outputs else E.base.n_outputs) ids) (hA : A ids)
    (y : Nat → Nat) (hy : ∀ i, i < E.base.n_data → y i < 256 ^ E.base.word_size) :
    ∃ a, IsRow E.base.word_size E.base.n_data a ∧
      ∀ i, i < E.base.n_data → fragVal E.base.sys E.base.n_data st a (gt ids i) = y i := by
  let k := E.base.n_data
  let Q := 256 ^ E.base.word_size
  let row : (Fin k → Fin Q) → Array Nat := fun v => Array.ofFn (fun i => (v i : Nat))
  have hrow : ∀ v, IsRow E.base.word_size E.base.n_data (row v) := fun v =>
    ⟨by simp [row, k], fun i hi => by
      simp only [row]; rw [gt_ofFn hi]; exact (v ⟨i, hi⟩).isLt⟩
  let f : (Fin k → Fin Q) → (Fin k → Fin Q) := fun v i =>
    ⟨fragVal E.base.sys E.base.n_data st (row v) (gt ids i), fragVal_lt hE (hrow v) (hv.lt i i.isLt)⟩
  have hinj : Function.Injective f := by
    intro u v huv
    have h := row_inj hE hv hA (hrow u) (hrow v) (fun i hi => by
      have := congrFun huv ⟨i, hi⟩
      exact Fin.val_eq_of_eq this)
    funext i
    have := h i i.isLt
    simp only [row] at this
    rw [gt_ofFn i.isLt, gt_ofFn i.isLt] at this
    exact Fin.ext this
  obtain ⟨v, hv'⟩ := Finite.surjective_of_injective hinj (fun i => ⟨y i, hy i i.isLt⟩)
  refine ⟨row v, hrow v, fun i hi => ?_⟩
  have := congrFun hv' ⟨i, hi⟩
  exact Fin.val_eq_of_eq this

/-- decoding of `T` rows of any words -/
theorem dec_any (hE : E.HSpec st (fun _ _ => none) A) (hP : E.PropsFree) {ids : Array Nat} {props : Array Properties} (mem : Nat → Nat)
    (hv : ValidIds E.base.n_data (if E.base.sys then E.base.n_data + E.base.n_outputs else E.base.n_outputs) ids) (hA : A ids)
    (hq : props.size = E.base.n_outputs) {T : Nat} {rows : Nat → Array Nat} (hrows : ∀ t, t < T → IsRow E.base.word_size E.base.n_data (rows t)) :
    ∃ (Good : Γ → Nat → Prop) (C : Γ) (props' : Array Properties),
      E.init_context_dec ids props mem = .ok (C, props') ∧ Good C 0 ∧
      ∀ {t : Nat} {C : Γ} {out words : Array Nat}, t < T → Good C t → out.size = E.base.n_data →
        words.size = (if E.base.sys then E.base.n_data else E.base.code_len) →
        (∀ i, i < E.base.n_data → gt words i = fragVal E.base.sys E.base.n_data st (rows t) (gt ids i)) →
        ∃ C' r, E.decode C out props' t words = .ok (C', r) ∧ r.size = E.base.n_data ∧ Good C' (t + 1) ∧
          ∀ i, i < E.base.n_data → gt r i = gt (rows t) i := by
  obtain ⟨Good, C, p', e, g0, hd⟩ := hE.dec (rows := rows) (T := T) (ids := ids)
    (props := Array.replicate E.base.n_outputs .empty) mem hrows hv hA (by simp) (fun i f hi hf _ => by
      rw [gt_replicate hf, marksOf_none]; rfl)
  obtain ⟨q', e'⟩ := hP.init (q := props) (by simp [hq]) e
  refine ⟨Good, C, q', e', g0, fun {t C out words} a1 a2 a3 a4 a5 => ?_⟩
  rw [hP.dec C out q' p' t t words]
  exact hd a1 a2 a3 a4 a5

/-- a code whose marks never occur -/
theorem HSpec.noMarks {mk : Array Nat → Nat → Option Nat} (hE : E.HSpec st mk A)
    (h : ∀ {a f}, IsRow E.base.word_size E.base.n_data a → f < E.base.n_outputs → mk a f = none) : E.HSpec st (fun _ _ => none) A := by
  refine ⟨hE.w, hE.kpos, hE.cl, hE.nout, hE.outs, hE.lt, ?_, ?_⟩
  · intro out props off a h1 h2 h3
    obtain ⟨o, p, e, s1, s2, hh⟩ := hE.enc (off := off) h1 h2 h3
    exact ⟨o, p, e, s1, s2, fun f hf => by rw [← h h3 hf]; exact hh f hf⟩
  · intro rows T ids props mem h1 h2 h3 h4 h5
    refine hE.dec mem h1 h2 h3 h4 (fun i f hi hf he => ?_)
    rw [h5 i f hi hf he]
    congr 1
    exact marksOf_congr (fun t ht => (h (h1 t ht) hf).symm)

open Spec

theorem fragsOf_eq {k : Nat} {sys : Bool} {datas pars : Array (Option (List Nat))} (hd : sys = true → datas.size = k) (g : Nat) :
    fragStream sys k datas pars g = (gt (fragsOf sys datas pars) g).getD [] := by
  unfold fragStream fragsOf
  by_cases hs : sys = true
  · rw [if_pos hs, if_pos hs, gt_append, hd hs]
    split <;> rfl
  · rw [if_neg hs, if_neg hs]

/-- the words at location `t` of the fragments of an encoding -/
theorem encode_words (hE : E.HSpec st (fun _ _ => none) A) {data : Array (List Nat)} {T : Nat}
    (hd : Gf2nData E.base.word_size E.base.n_data data T) (mem : Nat → Nat) :
    ∃ frags fprops, E.encode_streams_horizontal data (Array.replicate E.base.n_outputs []) (Array.replicate E.base.n_outputs .empty) mem
        = .ok (frags, fprops) ∧
      ∀ g t, g < (if E.base.sys then E.base.n_data + E.base.n_outputs else E.base.n_outputs) → t < T →
        wordAt E.base.word_size (gt (fragsOf E.base.sys data frags) g) t =
          fragVal E.base.sys E.base.n_data st (rowAt E.base.word_size E.base.n_data (gt data) t) g := by
  obtain ⟨fr, pr, e, s1, s2, hf⟩ := encode_streams_horizontal_spec hE (data := data)
    (outs := Array.replicate E.base.n_outputs []) (props := Array.replicate E.base.n_outputs .empty) mem (T := T)
    hd.size (by simp) (by simp) hd.bytes ⟨hd.full, hd.last⟩
  refine ⟨fr, pr, e, fun g t hg ht => ?_⟩
  have hrow : IsRow E.base.word_size E.base.n_data (rowAt E.base.word_size E.base.n_data (gt data) t) := rowAt_isRow hd.bytes t
  have hpar : ∀ f, f < E.base.n_outputs → wordAt E.base.word_size (gt fr f) t = st (rowAt E.base.word_size E.base.n_data (gt data) t) f := by
    intro f hf'
    rw [(hf f hf').1, gt_replicate hf', List.nil_append, wordAt_flat ht (hE.lt hrow hf' : st _ f < _)]
  unfold fragsOf fragVal
  by_cases hs : E.base.sys = true
  · rw [if_pos hs] at hg
    rw [if_pos hs, if_pos hs, gt_append, hd.size]
    by_cases hgk : g < E.base.n_data
    · rw [if_pos hgk, if_pos hgk, rowAt_gt hgk]
    · rw [if_neg hgk, if_neg hgk, hpar _ (by omega)]
  · rw [if_neg hs] at hg
    rw [if_neg hs, if_neg hs, hpar g hg]

theorem wordAt_eq (w : Nat) (s : List Nat) (t : Nat) : word w s t = wordAt w s t := by
  have h : ∀ l : List Nat, Nat.ofDigits 256 l = leVal l := by
    intro l
    induction l with
    | nil => rfl
    | cons a l ih => rw [Nat.ofDigits_cons, ih]; rfl
  exact h _

theorem agreeAt_iff (hE : E.HSpec st (fun _ _ => none) A) {data : Array (List Nat)} {T t : Nat}
    (hd : Gf2nData E.base.word_size E.base.n_data data T) (ht : t < T) {fr : Array (Option (List Nat))}
    (hfr : fr.size = if E.base.sys then E.base.n_data + E.base.n_outputs else E.base.n_outputs) :
    AgreeAt E E.base.sys E.base.word_size E.base.n_data E.base.n_outputs fr data t ↔
      ∀ j ∈ picked E.base.n_data fr, wordAt E.base.word_size ((gt fr j).getD []) t =
        fragVal E.base.sys E.base.n_data st (rowAt E.base.word_size E.base.n_data (gt data) t) j := by
  have hlt : ∀ j ∈ picked E.base.n_data fr, j < if E.base.sys then E.base.n_data + E.base.n_outputs else E.base.n_outputs := by
    intro j hj
    rw [← hfr]
    exact List.mem_range.mp (List.mem_filter.mp (List.mem_of_mem_take hj)).1
  constructor
  · intro h j hj
    obtain ⟨fr1, pr1, e1, h1⟩ := h (fun _ => 0)
    obtain ⟨fr2, pr2, e2, h2⟩ := encode_words hE hd (fun _ => 0)
    rw [e1] at e2
    have e3 := Except.ok.inj e2
    cases e3
    rw [← wordAt_eq, h1 j hj, wordAt_eq, h2 j t (hlt j hj) ht]
  · intro h mem
    obtain ⟨fr2, pr2, e2, h2⟩ := encode_words hE hd mem
    refine ⟨fr2, pr2, e2, fun j hj => ?_⟩
    rw [wordAt_eq, wordAt_eq, h j hj, h2 j t (hlt j hj) ht]

theorem nAvail_append (a b : Array (Option (List Nat))) : nAvail (a ++ b) = nAvail a + nAvail b := by
  unfold nAvail
  rw [Array.toList_append, List.countP_append]

/-- what decoding does with fragments of any contents -/
theorem decodesTo (hE : E.HSpec st (fun _ _ => none) A) (hP : E.PropsFree) {T : Nat} {datas pars outs : Array (Option (List Nat))}
    {props : Array Properties} (mem : Nat → Nat)
    (h : AnyWords E.base.sys E.base.word_size E.base.n_data E.base.n_outputs T datas pars)
    (hq : props.size = E.base.n_outputs) (ho : outs.size = E.base.n_data)
    (hall : E.base.sys = true → nAvail datas ≠ E.base.n_data)
    (hA : A (picked E.base.n_data (fragsOf E.base.sys datas pars)).toArray) :
    DecodesTo E E.base.sys E.base.word_size E.base.n_data E.base.n_outputs T datas pars outs props mem := by
  set k := E.base.n_data with hk
  set w := E.base.word_size with hw
  set fr := fragsOf E.base.sys datas pars with hfr
  have hkp : 0 < k := hE.kpos
  have hidl : E.base.idList (datas.map Option.isSome) (pars.map Option.isSome) = picked k fr := ids_picked E.base h.dsize h.psize
  have hfs : fr.size = if E.base.sys then k + E.base.n_outputs else E.base.n_outputs := by
    rw [hfr]; unfold fragsOf
    by_cases hs : E.base.sys = true
    · rw [if_pos hs, if_pos hs, Array.size_append, h.dsize hs, h.psize]
    · rw [if_neg hs, if_neg hs, h.psize]
  have hplen : (picked k fr).length = k := by
    unfold picked
    rw [List.length_take]
    have h1 : (present (fr.map Option.isSome) fr.size).length = nAvail fr := present_eq_avail fr rfl
    have h2 : present (fr.map Option.isSome) fr.size = (List.range fr.size).filter (fun i => (gt fr i).isSome) := by
      unfold present
      refine List.filter_congr fun i hi => ?_
      rw [gt_map (List.mem_range.mp hi)]
    rw [← h2, h1]
    have : k ≤ nAvail fr := h.enough
    omega
  have hmem : ∀ i, i < k → gt (picked k fr).toArray i ∈ picked k fr := by
    intro i hi
    exact (Gf2nRec.getD_mem_iff hplen).mp ⟨i, hi, rfl⟩
  have hdl : (E.base.dataList (datas.map Option.isSome)).length = if E.base.sys then nAvail datas else 0 := by
    unfold FecBase.dataList
    by_cases hs : E.base.sys = true
    · rw [if_pos hs, if_pos hs]; exact present_eq_avail datas (h.dsize hs)
    · rw [if_neg hs, if_neg hs]; rfl
  have hpl : (present (pars.map Option.isSome) E.base.n_outputs).length = nAvail pars := present_eq_avail pars h.psize
  have hbytes : ∀ g, ∀ x ∈ (gt fr g).getD [], x < 256 := by
    intro g x hx
    by_cases hg : g < fr.size
    · rw [gt_eq hg] at hx
      exact h.bytes _ (Array.getElem_mem_toList hg) x hx
    · have h0 : gt fr g = none := by
        rw [gt, Array.getD_eq_getD_getElem?, Array.getElem?_eq_none (by omega)]; rfl
      rw [h0] at hx
      simp at hx
  -- the row that has the words at location t
  have hpick : ValidIds k (if E.base.sys then k + E.base.n_outputs else E.base.n_outputs) (picked k fr).toArray := by
    refine ⟨by simp [hplen], ?_, ?_⟩
    · intro i j hi hj he
      rw [gt_toArray, gt_toArray] at he
      refine getD_ne_of_nodup ?_ (by omega) (by omega) he
      exact (List.Nodup.filter _ List.nodup_range).sublist (List.take_sublist _ _)
    · intro i hi
      have := List.mem_range.mp (List.mem_filter.mp (List.mem_of_mem_take (hmem i hi))).1
      rwa [hfs] at this
  have hrows : ∀ t, ∃ a, IsRow w k a ∧ ∀ i, i < k → fragVal E.base.sys k st a (gt (picked k fr).toArray i) =
      wordAt w ((gt fr (gt (picked k fr).toArray i)).getD []) t :=
    fun t => row_surj hE hpick hA _ (fun i hi => wordAt_lt (hbytes _) t)
  choose rows hrow hval using hrows
  obtain ⟨_, res, e, sr, hr⟩ := decode_streams_horizontal_any (E := E) hE.w hE.kpos hE.cl (T := T) (rows := rows) (outs := outs) (props := props) mem
    h.dsize h.psize hq ho (by
      rw [hdl]
      by_cases hs : E.base.sys = true
      · rw [if_pos hs]; exact hall hs
      · rw [if_neg hs]; omega) (by
      rw [hdl, hpl]
      have := h.enough
      rw [← hfr, hfr] at this
      unfold fragsOf at this
      by_cases hs : E.base.sys = true
      · rw [if_pos hs] at this ⊢
        rw [nAvail_append] at this
        omega
      · rw [if_neg hs] at this ⊢
        omega)
    (by
      rw [hidl]
      intro i hi
      rw [fragsOf_eq h.dsize]
      exact h.full _ (hmem i hi))
    (by
      rw [hidl]
      obtain ⟨j, hj, hl⟩ := h.last
      obtain ⟨i, hi, e⟩ := (Gf2nRec.getD_mem_iff hplen).mpr hj
      exact ⟨i, hi, by rw [e, fragsOf_eq h.dsize]; exact hl⟩)
    (by
      intro hv
      rw [hidl] at hv ⊢
      obtain ⟨Good, C, p', e1, g0, hd⟩ := dec_any hE hP (props := props) mem hv hA hq (T := T) (rows := rows) (fun t _ => hrow t)
      refine ⟨Good, C, p', e1, g0, fun {t C out words} a1 a2 a3 a4 a5 => hd a1 a2 a3 a4 (fun i hi => ?_)⟩
      rw [a5 i hi, fragsOf_eq h.dsize, hval t i hi])
  set out : Array (List Nat) := Array.ofFn (fun i : Fin k => flat w (fun t => gt (rows t) i) T) with hout
  have hgo : ∀ i, i < k → gt out i = flat w (fun t => gt (rows t) i) T := fun i hi => by rw [hout, gt_ofFn hi]
  have hdata : Gf2nData w k out T := by
    have hwp : 0 < w := hE.w.pos
    refine ⟨by simp [hout], fun i hi x hx => ?_, fun i hi => ?_, 0, hkp, ?_⟩
    · rw [hgo i hi] at hx
      obtain ⟨t, _, hh⟩ := List.mem_flatMap.mp hx
      exact leBytes_lt _ _ x hh
    · rw [hgo i hi, flat_length]
    · rw [hgo 0 hkp, flat_length, Nat.add_mul]; omega
  have hword : ∀ i t, i < k → t < T → wordAt w (gt out i) t = gt (rows t) i := fun i t hi ht => by
    rw [hgo i hi, wordAt_flat ht ((hrow t).2 i hi : gt (rows t) i < _)]
  have hrowAt : ∀ t, t < T → ∀ g, g < (if E.base.sys then k + E.base.n_outputs else E.base.n_outputs) →
      rowAt w k (gt out) t = rows t := by
    intro t ht g hg
    refine Array.ext (by simp [rowAt, (hrow t).1]) fun i h1 h2 => ?_
    have hi : i < k := by simpa [rowAt] using h1
    have := rowAt_gt (w := w) (D := gt out) (t := t) hi
    rw [hword i t hi ht, gt_eq h1, gt_eq h2] at this
    exact this
  refine ⟨res, out, e, sr, by simp [hout], fun i hi => ?_, fun i hi => ?_, fun t ht => ?_, ?_⟩
  · exact ⟨by rw [hgo i hi, flat_length], hdata.bytes i hi⟩
  · rw [hr i hi, hgo i hi]
  · rw [agreeAt_iff hE hdata ht hfs]
    intro j hj
    obtain ⟨i, hi, rfl⟩ := (Gf2nRec.getD_mem_iff hplen).mpr hj
    rw [hrowAt t ht _ (hpick.lt i hi)]
    exact (hval t i hi).symm
  · intro data T' t hd' ht' ht hag
    rw [agreeAt_iff hE hd' ht' hfs] at hag
    intro i hi
    rw [wordAt_eq, wordAt_eq, hword i t hi ht]
    have := row_inj hE hpick hA (hrow t) (rowAt_isRow hd'.bytes t) (fun i hi => by
      have h5 := hag _ (hmem i hi)
      exact (hval t i hi).trans h5) i hi
    rw [this]
    exact rowAt_gt hi

end Fec

/-! ### the codes -/

theorem RsGf2n.propsFree (F : GF) (w k m : Nat) (mat : Mat) : (RsGf2n.fec F w k m mat).PropsFree := by
  refine ⟨fun {ids p q mem C p'} _ e => ⟨q, ?_⟩, fun _ _ _ _ _ _ _ => rfl⟩
  change RsGf2n.init_dec F mat k ids p mem = _ at e
  change RsGf2n.init_dec F mat k ids q mem = _
  unfold RsGf2n.init_dec at e ⊢
  obtain ⟨D1, e1, e⟩ := bind_ok e
  obtain ⟨D2, e2, e⟩ := bind_ok e
  rw [e1, ok_bind, e2, ok_bind]
  have := Except.ok.inj e
  cases this
  rfl

theorem Ctx.mk'_props {F : GF} {fft : FT} {fft_2k : Option FT} {ids : Array Nat} {p q : Array Properties} {vx : Array Nat} {k n : Nat}
    {z : Option Nat} {mem : Nat → Nat} {C : Ctx} {p' : Array Properties} (h : p.size = q.size)
    (e : Ctx.mk' F fft fft_2k ids p vx k n z mem = .ok (C, p')) :
    Ctx.mk' F fft fft_2k ids q vx k n z mem = .ok (C, q.map Properties.sort) := by
  unfold Ctx.mk' at e ⊢
  obtain ⟨l, e1, e⟩ := bind_ok e
  rw [e1, ok_bind]
  obtain ⟨a, e2, e⟩ := bind_ok e
  simp only
  rw [e2, ok_bind]
  obtain ⟨b, e3, e⟩ := bind_ok e
  rw [e3, ok_bind]
  obtain ⟨c, e4, e⟩ := bind_ok e
  rw [e4, ok_bind]
  cases fft_2k with
  | none =>
    have := Except.ok.inj e
    cases this
    rw [h]
    rfl
  | some T =>
    obtain ⟨d, e5, e⟩ := bind_ok e
    simp only
    rw [e5, ok_bind]
    have := Except.ok.inj e
    cases this
    rw [h]
    rfl

theorem RsGf2nFft.propsFree (B : FecBase) : (RsGf2nFft.fec B).PropsFree := by
  refine ⟨fun {ids p q mem C p'} h e => ⟨q.map Properties.sort, ?_⟩, fun _ _ _ _ _ _ _ => rfl⟩
  change B.init_context_dec ids p mem = _ at e
  change B.init_context_dec ids q mem = _
  unfold FecBase.init_context_dec at e ⊢
  obtain ⟨vx, e1, e⟩ := bind_ok e
  rw [e1, ok_bind]
  exact Ctx.mk'_props h e

theorem RsGf2nFftAdd.propsFree (c : RsGf2nFftAdd.Code) : (RsGf2nFftAdd.fec c).PropsFree := by
  refine ⟨fun {ids p q mem C p'} h e => ⟨q.map Properties.sort, ?_⟩, fun _ _ _ _ _ _ _ => rfl⟩
  change RsGf2nFftAdd.init_context_dec c ids p mem = _ at e
  change RsGf2nFftAdd.init_context_dec c ids q mem = _
  unfold RsGf2nFftAdd.init_context_dec at e ⊢
  obtain ⟨vx, e1, e⟩ := bind_ok e
  rw [e1, ok_bind]
  obtain ⟨r, e2, e⟩ := bind_ok e
  simp only
  rw [Ctx.mk'_props h (C := r.1) (p' := r.2) e2, ok_bind]
  have := Except.ok.inj e
  cases this
  rfl

end Quad
