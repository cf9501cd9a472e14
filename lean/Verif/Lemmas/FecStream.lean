import Verif.Lemmas.Marks
import Verif.Lemmas.FecDec

/-!
Horizontal streams: any code whose word-level functions meet `Fec.HSpec`
round-trips byte streams.
-/

namespace Quad

/-! ### bytes and words -/

def WordSize (w : Nat) : Prop := w = 1 ∨ w = 2 ∨ w = 4 ∨ w = 8 ∨ w = 16

theorem WordSize.pos {w : Nat} (h : WordSize w) : 0 < w := by rcases h with h | h | h | h | h <;> omega

theorem two_pow_8 (w : Nat) : 2 ^ (8 * w) = 256 ^ w := by rw [pow_mul]; norm_num

@[simp] theorem leBytes_length (w v : Nat) : (leBytes w v).length = w := by
  induction w generalizing v with
  | zero => rfl
  | succ w ih => simp [leBytes, ih]

theorem leBytes_lt (w v : Nat) : ∀ x ∈ leBytes w v, x < 256 := by
  induction w generalizing v with
  | zero => simp [leBytes]
  | succ w ih =>
    intro x hx
    simp only [leBytes, List.mem_cons] at hx
    rcases hx with h | h
    · omega
    · exact ih _ x h

theorem leVal_leBytes {w v : Nat} (h : v < 256 ^ w) : leVal (leBytes w v) = v := by
  induction w generalizing v with
  | zero => simp at h; subst h; rfl
  | succ w ih =>
    simp only [leBytes, leVal]
    rw [ih (by rw [pow_succ] at h; omega)]
    omega

theorem leVal_lt {l : List Nat} (h : ∀ x ∈ l, x < 256) : leVal l < 256 ^ l.length := by
  induction l with
  | nil => simp [leVal]
  | cons a l ih =>
    have h1 := h a (by simp)
    have h2 := ih (fun x hx => h x (by simp [hx]))
    simp only [leVal, List.length_cons, pow_succ]
    omega

theorem leBytes_leVal {l : List Nat} (h : ∀ x ∈ l, x < 256) : leBytes l.length (leVal l) = l := by
  induction l with
  | nil => rfl
  | cons a l ih =>
    have h1 := h a (by simp)
    have h2 := ih (fun x hx => h x (by simp [hx]))
    simp only [List.length_cons, leBytes, leVal]
    rw [show (a + 256 * leVal l) % 256 = a by omega, show (a + 256 * leVal l) / 256 = leVal l by omega, h2]

/-- word `t` of a byte stream -/
def wordAt (w : Nat) (l : List Nat) (t : Nat) : Nat := leVal ((l.drop (t * w)).take w)

theorem wordAt_lt {w : Nat} {l : List Nat} (h : ∀ x ∈ l, x < 256) (t : Nat) : wordAt w l t < 256 ^ w := by
  have h1 : ∀ x ∈ (l.drop (t * w)).take w, x < 256 := fun x hx => h x (List.mem_of_mem_drop (List.mem_of_mem_take hx))
  have := leVal_lt h1
  refine lt_of_lt_of_le this (Nat.pow_le_pow_right (by omega) ?_)
  simp

/-- the bytes of a sequence of words -/
def flat (w : Nat) (f : Nat → Nat) (T : Nat) : List Nat := (List.range T).flatMap (fun t => leBytes w (f t))

theorem flat_zero (w : Nat) (f : Nat → Nat) : flat w f 0 = [] := rfl

theorem flat_succ (w : Nat) (f : Nat → Nat) (T : Nat) : flat w f (T + 1) = flat w f T ++ leBytes w (f T) := by
  simp [flat, List.range_succ, List.flatMap_append]

@[simp] theorem flat_length (w : Nat) (f : Nat → Nat) (T : Nat) : (flat w f T).length = T * w := by
  induction T with
  | zero => simp [flat_zero]
  | succ T ih => rw [flat_succ, List.length_append, ih, leBytes_length, Nat.succ_mul]

theorem flat_congr {w : Nat} {f g : Nat → Nat} {T : Nat} (h : ∀ t, t < T → f t = g t) : flat w f T = flat w g T := by
  induction T with
  | zero => rfl
  | succ T ih => rw [flat_succ, flat_succ, ih (fun t ht => h t (by omega)), h T (by omega)]

theorem flat_add (w : Nat) (f : Nat → Nat) (a b : Nat) : flat w f (a + b) = flat w f a ++ flat w (fun t => f (a + t)) b := by
  induction b with
  | zero => simp [flat_zero]
  | succ b ih => rw [← Nat.add_assoc, flat_succ, ih, flat_succ, List.append_assoc]

theorem wordAt_flat {w : Nat} {f : Nat → Nat} {T t : Nat} (ht : t < T) (h : f t < 256 ^ w) :
    wordAt w (flat w f T) t = f t := by
  obtain ⟨d, rfl⟩ : ∃ d, T = t + 1 + d := ⟨T - (t + 1), by omega⟩
  unfold wordAt
  rw [flat_add, flat_succ, List.append_assoc, List.drop_left' (flat_length _ _ _), List.take_left' (leBytes_length _ _),
    leVal_leBytes h]

theorem flat_wordAt {w : Nat} {l : List Nat} {T : Nat} (hl : T * w ≤ l.length) (h : ∀ x ∈ l, x < 256) :
    flat w (wordAt w l) T = l.take (T * w) := by
  induction T with
  | zero => simp [flat_zero]
  | succ T ih =>
    rw [Nat.succ_mul] at hl
    rw [flat_succ, ih (by omega), Nat.succ_mul, List.take_add]
    congr 1
    have h1 : ∀ x ∈ (l.drop (T * w)).take w, x < 256 := fun x hx => h x (List.mem_of_mem_drop (List.mem_of_mem_take hx))
    have h2 := leBytes_leVal h1
    rwa [show ((l.drop (T * w)).take w).length = w by simp; omega] at h2

theorem readw_spec {w : Nat} (hw : WordSize w) (s : List Nat) :
    readw w s = .ok (if s.length < w then none else some (leVal (s.take w), s.drop w)) := by
  unfold readw
  have : decide (w = 1 ∨ w = 2 ∨ w = 4 ∨ w = 8 ∨ w = 16) = true := decide_eq_true hw
  simp only [cassert, this, if_true, ok_bind]
  split <;> rfl

theorem writew_spec {w : Nat} (hw : WordSize w) (v : Nat) (s : List Nat) : writew w v s = .ok (s ++ leBytes w v) := by
  unfold writew
  have : decide (w = 1 ∨ w = 2 ∨ w = 4 ∨ w = 8 ∨ w = 16) = true := decide_eq_true hw
  simp only [cassert, this, if_true, ok_bind]
  rfl

/-! ### reading a row -/

theorem readRow_spec {w count dst : Nat} {idx : Nat → Res Nat} {ix : Nat → Nat} {streams : Array (Option (List Nat))}
    {words : Array Nat} {R : Nat → List Nat} (hw : WordSize w) (hix : ∀ i, i < count → idx i = .ok (ix i))
    (hinj : ∀ i j, i < count → j < count → ix i = ix j → i = j) (hb : ∀ i, i < count → ix i < streams.size)
    (hs : ∀ i, i < count → gt streams (ix i) = some (R i)) (hd : dst + count ≤ words.size) :
    ∃ st ws c, readRow w count dst idx streams words = .ok (st, ws, c) ∧ st.size = streams.size ∧ ws.size = words.size ∧
      (c = true ↔ ∀ i, i < count → w ≤ (R i).length) ∧
      (c = true → (∀ i, i < count → gt st (ix i) = some ((R i).drop w)) ∧
        (∀ j, (∀ i, i < count → ix i ≠ j) → gt st j = gt streams j) ∧
        (∀ i, i < count → gt ws (dst + i) = leVal ((R i).take w)) ∧
        (∀ j, j < dst → gt ws j = gt words j)) := by
  unfold readRow
  obtain ⟨s, e, h1, h2, h3, h4⟩ := forN_inv (n := count) (s := (streams, words, true)) (f := fun i st =>
      if st.2.2 = false then .ok st else do
        let j ← idx i
        let s ← rd st.1 j
        match s with
        | none => ub
        | some s => do
          let r ← readw w s
          match r with
          | none => pure (st.1, st.2.1, false)
          | some (v, rest) => do
            let streams ← wr st.1 j (some rest)
            let words ← wr st.2.1 (dst + i) v
            pure (streams, words, true))
    (I := fun t (s : Array (Option (List Nat)) × Array Nat × Bool) => s.1.size = streams.size ∧ s.2.1.size = words.size ∧
      (s.2.2 = true ↔ ∀ i, i < t → w ≤ (R i).length) ∧
      (s.2.2 = true → (∀ i, i < t → gt s.1 (ix i) = some ((R i).drop w)) ∧
        (∀ j, (∀ i, i < t → ix i ≠ j) → gt s.1 j = gt streams j) ∧
        (∀ i, i < t → gt s.2.1 (dst + i) = leVal ((R i).take w)) ∧
        (∀ j, j < dst → gt s.2.1 j = gt words j)))
    ⟨rfl, rfl, by simp, by simp⟩ (by
      rintro t ⟨st, ws, c⟩ ht ⟨i1, i2, i3, i4⟩
      simp only at i1 i2 i3 i4 ⊢
      cases c with
      | false =>
        refine ⟨(st, ws, false), by simp, i1, i2, ?_, by simp⟩
        constructor
        · simp
        · intro h
          exact absurd (i3.mpr (fun i hi => h i (by omega))) (by simp)
      | true =>
        obtain ⟨j1, j2, j3, j4⟩ := i4 rfl
        have hst : gt st (ix t) = some (R t) := by
          rw [j2 _ (fun i hi h => by have := hinj i t (by omega) ht h; omega), hs t ht]
        have hbt := hb t ht
        rw [if_neg (by simp), hix t ht, ok_bind, rd_gt (by omega), ok_bind, hst]
        simp only
        rw [readw_spec hw, ok_bind]
        by_cases hl : (R t).length < w
        · rw [if_pos hl]
          refine ⟨_, rfl, i1, i2, ?_, by simp⟩
          constructor
          · simp
          · intro h; have := h t (by omega); omega
        · rw [if_neg hl]
          simp only
          rw [wr_ok (by omega), ok_bind, wr_ok (by omega), ok_bind]
          refine ⟨_, rfl, by simp [i1], by simp [i2], ?_, ?_⟩
          · constructor
            · intro _ i hi
              rcases Nat.lt_or_ge i t with h | h
              · exact i3.mp rfl i h
              · have : i = t := by omega
                subst this; omega
            · simp
          · intro _
            refine ⟨?_, ?_, ?_, ?_⟩
            · intro i hi
              simp only
              rw [gt_set (by omega)]
              by_cases h : ix i = ix t
              · have := hinj i t (by omega) ht h
                subst this; rw [if_pos rfl]
              · rw [if_neg h]
                have : i ≠ t := fun he => h (by rw [he])
                exact j1 i (by omega)
            · intro j hj
              simp only
              rw [gt_set (by omega), if_neg (fun h => hj t (by omega) h.symm)]
              exact j2 j (fun i hi => hj i (by omega))
            · intro i hi
              simp only
              rw [gt_set (by omega)]
              by_cases h : i = t
              · subst h; rw [if_pos rfl]
              · rw [if_neg (by omega)]; exact j3 i (by omega)
            · intro j hj
              simp only
              rw [gt_set (by omega), if_neg (by omega)]; exact j4 j hj)
  exact ⟨s.1, s.2.1, s.2.2, e, h1, h2, h3, h4⟩

/-! ### what the word-level functions of a code must do -/

/-- fragment `g` of a code: in systematic mode the first `k` are the data -/
def fragVal (sys : Bool) (k : Nat) (st : Array Nat → Nat → Nat) (a : Array Nat) (g : Nat) : Nat :=
  if sys then (if g < k then gt a g else st a (g - k)) else st a g

/-- a row of data: `k` words of `w` bytes -/
def IsRow (w k : Nat) (a : Array Nat) : Prop := a.size = k ∧ ∀ i, i < k → gt a i < 256 ^ w

/-- a choice of `k` distinct fragments among `N` -/
structure ValidIds (k N : Nat) (ids : Array Nat) : Prop where
  size : ids.size = k
  inj : ∀ i j, i < k → j < k → gt ids i = gt ids j → i = j
  lt : ∀ i, i < k → gt ids i < N

/-- `st a f` is what is stored of output `f` for data row `a`, `mk a f` its mark; `A` are the choices of fragments
the code recovers from -/
structure Fec.HSpec {Γ : Type} (E : Fec Γ) (st : Array Nat → Nat → Nat) (mk : Array Nat → Nat → Option Nat)
    (A : Array Nat → Prop := fun _ => True) : Prop where
  w : WordSize E.base.word_size
  kpos : 0 < E.base.n_data
  cl : E.base.code_len = E.base.n_data + E.base.n_parities
  nout : E.base.n_outputs = if E.base.sys then E.base.n_parities else E.base.code_len
  outs : E.base.n_outputs ≤ E.get_n_outputs
  lt : ∀ {a f}, IsRow E.base.word_size E.base.n_data a → f < E.base.n_outputs → st a f < 256 ^ E.base.word_size
  enc : ∀ {out : Array Nat} {props : Array Properties} {off : Nat} {a : Array Nat}, out.size = E.get_n_outputs →
    props.size = E.base.n_outputs → IsRow E.base.word_size E.base.n_data a →
    ∃ out' props', E.encode out props off a = .ok (out', props') ∧ out'.size = E.get_n_outputs ∧
      props'.size = E.base.n_outputs ∧ ∀ f, f < E.base.n_outputs → gt out' f = st a f ∧
        gt props' f = (gt props f).addMark off (mk a f)
  dec : ∀ {rows : Nat → Array Nat} {T : Nat} {ids : Array Nat} {props : Array Properties} (mem : Nat → Nat),
    (∀ t, t < T → IsRow E.base.word_size E.base.n_data (rows t)) →
    ValidIds E.base.n_data (if E.base.sys then E.base.n_data + E.base.n_outputs else E.base.n_outputs) ids → A ids →
    props.size = E.base.n_outputs →
    (∀ i f, i < E.base.n_data → f < E.base.n_outputs → gt ids i = (if E.base.sys then E.base.n_data + f else f) →
      gt props f = ⟨marksOf (fun t => mk (rows t) f) T⟩) →
    ∃ (Good : Γ → Nat → Prop) (C : Γ) (props' : Array Properties),
      E.init_context_dec ids props mem = .ok (C, props') ∧ Good C 0 ∧
      ∀ {t : Nat} {C : Γ} {out words : Array Nat}, t < T → Good C t → out.size = E.base.n_data →
        words.size = (if E.base.sys then E.base.n_data else E.base.code_len) →
        (∀ i, i < E.base.n_data → gt words i = fragVal E.base.sys E.base.n_data st (rows t) (gt ids i)) →
        ∃ C' r, E.decode C out props' t words = .ok (C', r) ∧ r.size = E.base.n_data ∧ Good C' (t + 1) ∧
          ∀ i, i < E.base.n_data → gt r i = gt (rows t) i

/-- row `t` of `k` byte streams -/
def rowAt (w k : Nat) (D : Nat → List Nat) (t : Nat) : Array Nat := Array.ofFn (fun i : Fin k => wordAt w (D i) t)

theorem rowAt_isRow {w k : Nat} {D : Nat → List Nat} (hD : ∀ i, i < k → ∀ x ∈ D i, x < 256) (t : Nat) :
    IsRow w k (rowAt w k D t) := by
  refine ⟨by simp [rowAt], fun i hi => ?_⟩
  unfold rowAt
  rw [gt_ofFn hi]
  exact wordAt_lt (hD i hi) t

theorem rowAt_gt {w k : Nat} {D : Nat → List Nat} {t i : Nat} (hi : i < k) : gt (rowAt w k D t) i = wordAt w (D i) t := by
  unfold rowAt; rw [gt_ofFn hi]

/-- the number of full rows in `k` streams -/
structure Rows (w k : Nat) (D : Nat → List Nat) (T : Nat) : Prop where
  full : ∀ i, i < k → T * w ≤ (D i).length
  last : ∃ i, i < k ∧ (D i).length < (T + 1) * w

namespace Fec
variable {Γ : Type} {E : Fec Γ} {st : Array Nat → Nat → Nat} {mk : Array Nat → Nat → Option Nat}
  {A : Array Nat → Prop}

theorem encWrite_spec {w N : Nat} (hw : WordSize w) {output : Array Nat} {outs : Array (List Nat)}
    (h1 : N ≤ output.size) (h2 : N ≤ outs.size) :
    ∃ r, forN N outs (fun i outs => do
        let v ← rd output i
        let s ← rd outs i
        let s ← writew w v s
        wr outs i s) = .ok r ∧ r.size = outs.size ∧
      ∀ i, gt r i = if i < N then gt outs i ++ leBytes w (gt output i) else gt outs i := by
  refine forN_inv (I := fun t (r : Array (List Nat)) => r.size = outs.size ∧
    ∀ i, gt r i = if i < t then gt outs i ++ leBytes w (gt output i) else gt outs i) ⟨rfl, by simp⟩ ?_
  rintro t r ht ⟨i1, i2⟩
  refine ⟨_, by rw [rd_gt (a := output) (by omega), ok_bind, rd_gt (a := r) (by omega), ok_bind, writew_spec hw, ok_bind,
    wr_ok (by omega)], by simp [i1], ?_⟩
  intro i
  rw [gt_set (by omega)]
  by_cases h : i = t
  · subst h; rw [if_pos rfl, if_pos (by omega), i2, if_neg (by omega)]
  · rw [if_neg h, i2]
    by_cases hlt : i < t
    · rw [if_pos hlt, if_pos (by omega)]
    · rw [if_neg hlt, if_neg (by omega)]

theorem encLoop_spec (hE : E.HSpec st mk A) {D : Nat → List Nat} {T : Nat} {O : Nat → List Nat}
    (hD : ∀ i, i < E.base.n_data → ∀ x ∈ D i, x < 256) (hT : Rows E.base.word_size E.base.n_data D T)
    {d : Nat} : ∀ {t fuel : Nat} {ins : Array (Option (List Nat))} {outs : Array (List Nat)} {props : Array Properties}
      {words output : Array Nat}, t + d = T → d < fuel → ins.size = E.base.n_data →
      (∀ i, i < E.base.n_data → gt ins i = some ((D i).drop (t * E.base.word_size))) → outs.size = E.base.n_outputs →
      (∀ f, f < E.base.n_outputs → gt outs f = O f ++
        flat E.base.word_size (fun t => st (rowAt E.base.word_size E.base.n_data D t) f) t) →
      props.size = E.base.n_outputs →
      (∀ f, f < E.base.n_outputs → gt props f = ⟨marksOf (fun t => mk (rowAt E.base.word_size E.base.n_data D t) f) t⟩) →
      words.size = E.base.n_data → output.size = E.get_n_outputs →
      ∃ outs' props', E.encLoop fuel ins outs props words output t = .ok (outs', props') ∧ outs'.size = E.base.n_outputs ∧
        props'.size = E.base.n_outputs ∧ ∀ f, f < E.base.n_outputs →
        gt outs' f = O f ++ flat E.base.word_size (fun t => st (rowAt E.base.word_size E.base.n_data D t) f) T ∧
        gt props' f = ⟨marksOf (fun t => mk (rowAt E.base.word_size E.base.n_data D t) f) T⟩ := by
  have hw := hE.w
  have hwp := hw.pos
  induction d with
  | zero =>
    intro t fuel ins outs props words output ht hfuel hi1 hi2 ho1 ho2 hp1 hp2 hws hos
    have htT : t = T := by omega
    subst htT
    obtain ⟨fuel, rfl⟩ : ∃ f, fuel = f + 1 := ⟨fuel - 1, by omega⟩
    obtain ⟨s', ws', c, e, _, _, hc, _⟩ := readRow_spec (w := E.base.word_size) (count := E.base.n_data) (dst := 0)
      (idx := fun i => .ok i) (ix := id) (streams := ins) (words := Array.replicate words.size 0)
      (R := fun i => (D i).drop (t * E.base.word_size)) hw (fun i _ => rfl)
      (fun i j _ _ h => h) (fun i hi => by simp only [id]; omega) hi2 (by simp; omega)
    have hc' : c = false := by
      by_contra hne
      obtain ⟨i, hi, hl⟩ := hT.last
      have := (hc.mp (by simpa using hne)) i hi
      rw [List.length_drop, Nat.add_mul] at *
      omega
    subst hc'
    refine ⟨outs, props, ?_, ho1, hp1, fun f hf => ⟨ho2 f hf, hp2 f hf⟩⟩
    unfold encLoop
    simp only
    rw [e, ok_bind]
    simp only
    rw [if_neg (by simp)]
    rfl
  | succ d ih =>
    intro t fuel ins outs props words output ht hfuel hi1 hi2 ho1 ho2 hp1 hp2 hws hos
    obtain ⟨fuel, rfl⟩ : ∃ f, fuel = f + 1 := ⟨fuel - 1, by omega⟩
    obtain ⟨s', ws', c, e, z1, z2, hc, hr⟩ := readRow_spec (w := E.base.word_size) (count := E.base.n_data) (dst := 0)
      (idx := fun i => .ok i) (ix := id) (streams := ins) (words := Array.replicate words.size 0)
      (R := fun i => (D i).drop (t * E.base.word_size)) hw (fun i _ => rfl)
      (fun i j _ _ h => h) (fun i hi => by simp only [id]; omega) hi2 (by simp; omega)
    have hc' : c = true := by
      refine hc.mpr (fun i hi => ?_)
      have h1 := hT.full i hi
      have h2 : (t + 1) * E.base.word_size ≤ T * E.base.word_size := Nat.mul_le_mul_right _ (by omega)
      rw [List.length_drop]
      rw [Nat.add_mul] at h2
      omega
    obtain ⟨r1, r2, r3, r4⟩ := hr hc'
    subst hc'
    have hrow : ws' = rowAt E.base.word_size E.base.n_data D t := by
      apply gt_ext (by rw [z2]; simp [rowAt, hws])
      intro i hi
      rw [z2, Array.size_replicate, hws] at hi
      rw [rowAt_gt hi]
      have := r3 i hi
      rw [Nat.zero_add] at this
      exact this
    obtain ⟨out', props', ee, q1, q2, q3⟩ := hE.enc (out := output) (props := props) (off := t) (a := ws') hos hp1
      (by rw [hrow]; exact rowAt_isRow hD t)
    obtain ⟨outs', eo, o1, o2⟩ := encWrite_spec (N := E.base.n_outputs) hw (output := out') (outs := outs)
      (by rw [q1]; exact hE.outs) (by omega)
    have := ih (t := t + 1) (fuel := fuel) (ins := s') (outs := outs') (props := props') (words := ws') (output := out')
      (by omega) (by omega) (by omega) ?_ (by omega) ?_ q2 ?_ (by rw [z2]; simp [hws]) q1
    · obtain ⟨x, y, ex, h⟩ := this
      refine ⟨x, y, ?_, h⟩
      unfold encLoop
      simp only
      rw [e, ok_bind]
      simp only
      rw [if_pos trivial, ee, ok_bind]
      simp only
      rw [eo, ok_bind, ex]
    · intro i hi
      have := r1 i hi
      simp only [id] at this
      rw [this, List.drop_drop, Nat.add_mul, Nat.one_mul]
    · intro f hf
      rw [o2, if_pos hf, ho2 f hf, flat_succ, (q3 f hf).1, hrow, List.append_assoc]
    · intro f hf
      rw [(q3 f hf).2, hp2 f hf, hrow]
      exact addMark_marksOf (fun t => mk (rowAt E.base.word_size E.base.n_data D t) f) t

/-- encoding byte streams word by word -/
theorem encode_streams_horizontal_spec (hE : E.HSpec st mk A) {data : Array (List Nat)} {outs : Array (List Nat)}
    {props : Array Properties} {T : Nat} (mem : Nat → Nat) (h1 : data.size = E.base.n_data) (h2 : outs.size = E.base.n_outputs)
    (h3 : props.size = E.base.n_outputs) (hD : ∀ i, i < E.base.n_data → ∀ x ∈ gt data i, x < 256)
    (hT : Rows E.base.word_size E.base.n_data (gt data) T) :
    ∃ outs' props', E.encode_streams_horizontal data outs props mem = .ok (outs', props') ∧
      outs'.size = E.base.n_outputs ∧ props'.size = E.base.n_outputs ∧ ∀ f, f < E.base.n_outputs →
      gt outs' f = gt outs f ++ flat E.base.word_size (fun t => st (rowAt E.base.word_size E.base.n_data (gt data) t) f) T ∧
      gt props' f = ⟨marksOf (fun t => mk (rowAt E.base.word_size E.base.n_data (gt data) t) f) T⟩ := by
  have hk := hE.kpos
  have hwp := hE.w.pos
  have hfuel : T < (gt data 0).length + 2 := by
    have := hT.full 0 hk
    have : T * 1 ≤ T * E.base.word_size := Nat.mul_le_mul_left _ hwp
    omega
  obtain ⟨o, p, e, h⟩ := encLoop_spec hE (D := gt data) (T := T) (O := gt outs) hD hT (d := T) (t := 0)
    (fuel := (gt data 0).length + 2) (ins := data.map some) (outs := outs) (props := props.map Properties.clear)
    (words := fresh mem E.base.n_data) (output := fresh mem E.get_n_outputs) (by omega) (by omega) (by simp [h1])
    (fun i hi => by
      simp [gt, h1, hi])
    h2 (fun f hf => by simp [flat_zero]) (by simp [h3])
    (fun f hf => by simp [gt, h3, hf, Properties.clear, marksOf_zero]) (by simp) (by simp)
  refine ⟨o, p, ?_, h⟩
  unfold encode_streams_horizontal
  simp only [cassert, h1, h2, h3, decide_true, if_true, ok_bind]
  exact e

end Fec
end Quad
