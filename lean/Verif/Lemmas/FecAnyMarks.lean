import Verif.Lemmas.FecAnyWords
import Verif.Lemmas.FecBufCtx
import Verif.Spec.AnyMarks
import Mathlib.LinearAlgebra.Lagrange

/-!
# Decoding word by word of fragments and properties with any contents
-/

namespace Quad
open Finset Polynomial Spec

/-! ### the walk through the marks -/

/-- the index in the sorted list `L` before word `t` -/
def walk (P : Properties) : Nat → Nat
  | 0 => 0
  | t + 1 => walk P t + if P.is_marked (walk P t) t then 1 else 0

def lexLe (a b : Nat × Nat) : Prop := a.1 < b.1 ∨ (a.1 = b.1 ∧ a.2 ≤ b.2)

theorem is_marked_drop (P : Properties) (i t : Nat) :
    P.is_marked i t = true ↔ ∃ m R, P.props.drop i = (t, m) :: R := by
  unfold Properties.is_marked
  cases h : P.props[i]? with
  | none =>
    have : P.props.drop i = [] := List.drop_eq_nil_of_le (by simpa using h)
    simp [this]
  | some x =>
    obtain ⟨hi, hx⟩ := List.getElem?_eq_some_iff.mp h
    have hd : P.props.drop i = x :: P.props.drop (i + 1) := by rw [← hx]; exact (List.drop_eq_getElem_cons hi)
    rw [hd]
    constructor
    · intro e
      have : x.1 = t := by simpa using e
      exact ⟨x.2, _, by rw [← this]⟩
    · rintro ⟨m, R, e⟩
      injection e with e _
      simp [e]

theorem marker_drop {P : Properties} {i m t : Nat} {R : List (Nat × Nat)} (h : P.props.drop i = (t, m) :: R) : P.marker i = m := by
  unfold Properties.marker
  have : P.props[i]? = some (t, m) := by
    have := congrArg List.head? h
    rwa [List.head?_drop] at this
  rw [this]; rfl

theorem filter_ge_succ {l : List (Nat × Nat)} (t : Nat) :
    (l.filter (fun x => decide (t ≤ x.1))).filter (fun x => decide (t + 1 ≤ x.1)) = l.filter (fun x => decide (t + 1 ≤ x.1)) := by
  rw [List.filter_filter]
  apply List.filter_congr
  intro x _
  by_cases h : t + 1 ≤ x.1
  · simp [h]; omega
  · simp [h]

/-- what the index points at before word `t` -/
theorem walk_spec {P : Properties} (hs : P.props.Pairwise lexLe) (t : Nat) :
    ((∀ s, s < t → (P.props.map Prod.fst).count s ≤ 1) ∧ P.props.drop (walk P t) = P.props.filter (fun x => decide (t ≤ x.1))) ∨
    ((∃ s, s < t ∧ 1 < (P.props.map Prod.fst).count s) ∧ ∃ x R, P.props.drop (walk P t) = x :: R ∧ x.1 < t) := by
  induction t with
  | zero => left; exact ⟨by simp, by simp [walk]⟩
  | succ t ih =>
    rcases ih with ⟨h1, h2⟩ | ⟨⟨s, h1, h1'⟩, x, R, h2, h3⟩
    · have hsf : (P.props.filter (fun x => decide (t ≤ x.1))).Pairwise lexLe := hs.filter _
      have hcount : (P.props.map Prod.fst).count t = ((P.props.filter (fun x => decide (t ≤ x.1))).map Prod.fst).count t := by
        rw [List.count_eq_countP, List.count_eq_countP, List.countP_map, List.countP_map, List.countP_filter]
        apply List.countP_congr
        intro a _
        simp only [Function.comp, Bool.and_eq_true, beq_iff_eq, decide_eq_true_eq]
        omega
      have hge : ∀ y ∈ P.props.filter (fun x => decide (t ≤ x.1)), t ≤ y.1 := by
        intro y hy; simpa using (List.mem_filter.mp hy).2
      rw [← filter_ge_succ (l := P.props) t]
      rw [← h2] at hsf hcount hge ⊢
      have hstep : P.props.drop (walk P (t + 1)) = if P.is_marked (walk P t) t then (P.props.drop (walk P t)).tail else P.props.drop (walk P t) := by
        rw [walk]
        split
        · rw [List.tail_drop]
        · rfl
      rw [hstep]
      cases hR : P.props.drop (walk P t) with
      | nil =>
        left
        rw [hR] at hcount
        refine ⟨fun s hs => ?_, by simp⟩
        by_cases e : s = t
        · subst e; rw [hcount]; simp
        · exact h1 s (by omega)
      | cons x R =>
        rw [hR] at hsf hcount hge
        rw [List.pairwise_cons] at hsf
        have hx := hge x (by simp)
        by_cases hxt : x.1 = t
        · have hm : P.is_marked (walk P t) t = true := (is_marked_drop P _ _).mpr ⟨x.2, R, by rw [hR, ← hxt]⟩
          rw [if_pos hm]
          simp only [List.tail_cons]
          cases R with
          | nil =>
            left
            refine ⟨fun s hs => ?_, by simp [hxt]⟩
            by_cases e : s = t
            · subst e; rw [hcount]; simp [List.count_cons]; split <;> omega
            · exact h1 s (by omega)
          | cons y R =>
            have hy := hge y (by simp)
            by_cases hyt : y.1 = t
            · right
              refine ⟨⟨t, by omega, ?_⟩, y, R, rfl, by omega⟩
              rw [hcount]; simp [hxt, hyt]
            · left
              have hall : ∀ z ∈ y :: R, t + 1 ≤ z.1 := by
                intro z hz
                rcases List.mem_cons.mp hz with rfl | hz'
                · omega
                · have := (List.pairwise_cons.mp hsf.2).1 z hz'
                  unfold lexLe at this
                  omega
              refine ⟨fun s hs => ?_, ?_⟩
              · by_cases e : s = t
                · subst e
                  rw [hcount, List.map_cons, List.count_cons, List.count_eq_zero_of_not_mem]
                  · split <;> omega
                  · intro hc
                    obtain ⟨z, hz, e⟩ := List.mem_map.mp hc
                    have := hall z hz
                    omega
                · exact h1 s (by omega)
              · rw [List.filter_cons, if_neg (by simp [hxt]), List.filter_eq_self.mpr (fun z hz => by simpa using hall z hz)]
        · have hm : ¬ P.is_marked (walk P t) t = true := by
            rw [is_marked_drop]
            rintro ⟨m, R', e⟩
            rw [hR] at e
            injection e with e _
            exact hxt (by rw [e])
          rw [if_neg hm]
          left
          have hall : ∀ z ∈ x :: R, t + 1 ≤ z.1 := by
            intro z hz
            rcases List.mem_cons.mp hz with rfl | hz'
            · omega
            · have := hsf.1 z hz'
              unfold lexLe at this
              omega
          refine ⟨fun s hs => ?_, ?_⟩
          · by_cases e : s = t
            · subst e
              rw [hcount, List.count_eq_zero_of_not_mem]
              · omega
              · intro hc
                obtain ⟨z, hz, e⟩ := List.mem_map.mp hc
                have := hall z hz
                omega
            · exact h1 s (by omega)
          · rw [List.filter_eq_self.mpr (fun z hz => by simpa using hall z hz)]
    · right
      refine ⟨⟨s, by omega, h1'⟩, x, R, ?_, by omega⟩
      have hm : ¬ P.is_marked (walk P t) t = true := by
        rw [is_marked_drop]
        rintro ⟨m, R', e⟩
        rw [h2] at e
        injection e with e _
        rw [e] at h3
        exact absurd h3 (lt_irrefl _)
      rw [walk, if_neg hm, Nat.add_zero, h2]

theorem Properties.sort_lex (P : Properties) : P.sort.props.Pairwise lexLe := by
  have := List.pairwise_mergeSort (le := Properties.pairLe)
    (fun a b c h h' => by simp only [Properties.pairLe, decide_eq_true_eq] at *; omega)
    (fun a b => by simp only [Properties.pairLe, Bool.or_eq_true, decide_eq_true_eq]; omega) P.props
  refine this.imp fun {a b} h => ?_
  simp only [Properties.pairLe, decide_eq_true_eq] at h
  exact h

/-- the marks seen on the way -/
theorem walk_marked (P : Properties) (t : Nat) :
    (P.sort.is_marked (walk P.sort t) t = true ∧ P.sort.marker (walk P.sort t) = OOR_MARK) ↔ MarkedAt P t := by
  have hp := P.sort_perm
  have hs := P.sort_lex
  have hc : ∀ s, (P.sort.props.map Prod.fst).count s = (P.props.map Prod.fst).count s := fun s => (hp.map _).count_eq s
  unfold MarkedAt
  rcases walk_spec hs t with ⟨h1, h2⟩ | ⟨⟨s, h1, h1'⟩, x, R, h2, h3⟩
  · rw [is_marked_drop]
    constructor
    · rintro ⟨⟨m, R, e⟩, hm⟩
      have hmm := marker_drop e
      rw [hm] at hmm
      subst hmm
      have hmem : ∀ q, q ∈ P.props → q.1 = t → q ∈ (t, OOR_MARK) :: R := by
        intro q hq hqt
        rw [← e, h2]
        exact List.mem_filter.mpr ⟨hp.mem_iff.mpr hq, by simp [hqt]⟩
      refine ⟨?_, ?_, fun s hs => by rw [← hc]; exact h1 s hs⟩
      · apply hp.mem_iff.mp
        refine List.mem_of_mem_drop (i := walk P.sort t) ?_
        rw [e]; simp
      · intro q hq hqt
        rcases List.mem_cons.mp (hmem q hq hqt) with rfl | hr
        · exact le_rfl
        · have hpw : ((t, OOR_MARK) :: R).Pairwise lexLe := by rw [← e]; exact hs.drop
          have := (List.pairwise_cons.mp hpw).1 q hr
          unfold lexLe at this
          simp only at this
          omega
    · rintro ⟨a1, a2, _⟩
      have hin : (t, OOR_MARK) ∈ P.sort.props.drop (walk P.sort t) := by
        rw [h2]; exact List.mem_filter.mpr ⟨hp.mem_iff.mpr a1, by simp⟩
      cases hR : P.sort.props.drop (walk P.sort t) with
      | nil => rw [hR] at hin; simp at hin
      | cons x R =>
        have hx : x ∈ P.sort.props.filter (fun x => decide (t ≤ x.1)) := by rw [← h2, hR]; simp
        obtain ⟨x1, x2⟩ := List.mem_filter.mp hx
        have x2' : t ≤ x.1 := by simpa using x2
        have hpw : (x :: R).Pairwise lexLe := by rw [← hR]; exact hs.drop
        have hle : lexLe x (t, OOR_MARK) := by
          rw [hR] at hin
          rcases List.mem_cons.mp hin with e | hr
          · rw [← e]; exact .inr ⟨rfl, le_rfl⟩
          · exact (List.pairwise_cons.mp hpw).1 _ hr
        unfold lexLe at hle
        simp only at hle
        have hxt : x.1 = t := by omega
        have hx2 := a2 x (hp.mem_iff.mp x1) hxt
        have hxo : x.2 = OOR_MARK := by omega
        obtain ⟨a, b⟩ := x
        simp only at hxt hxo
        subst hxt hxo
        exact ⟨⟨_, R, rfl⟩, marker_drop hR⟩
  · constructor
    · rintro ⟨hm, _⟩
      rw [is_marked_drop, h2] at hm
      obtain ⟨m, R', e⟩ := hm
      injection e with e _
      rw [e] at h3
      exact absurd h3 (lt_irrefl _)
    · rintro ⟨_, _, a3⟩
      have := a3 s h1
      rw [hc] at h1'
      omega

/-! ### preparation of the words, with any marks -/

/-- the loop of the two preparations; `step` changes a word -/
def prepLoop (n_data : Nat) (step : Array Nat → Nat → Res (Array Nat)) (C : Ctx) (props : Array Properties) (off : Nat) (words : Array Nat) :
    Res (Ctx × Array Nat) :=
  forN n_data (C, words) (fun i s => do
    let j ← rd s.1.fragments_ids i
    let P ← rd props j
    let idx ← rd s.1.props_indices j
    if P.is_marked idx off then do
      let words ← if P.marker idx = OOR_MARK then step s.2 i else pure s.2
      let pi ← wr s.1.props_indices j (idx + 1)
      pure ({ s.1 with props_indices := pi }, words)
    else pure s)

theorem prepLoop_spec {k : Nat} {step : Array Nat → Nat → Res (Array Nat)} {u : Nat → Nat}
    {L : Nat} (hstep : ∀ ws i, i < ws.size → gt ws i < L → step ws i = .ok (ws.setIfInBounds i (u (gt ws i))))
    {C : Ctx} {props : Array Properties} {off : Nat} {words : Array Nat}
    (hL : ∀ i, i < k → gt words i < L) {N : Nat} (hids : ValidIds k N C.fragments_ids) (hp : N ≤ props.size) (hpi : N ≤ C.props_indices.size)
    (hw : k ≤ words.size) :
    ∃ pi ws, prepLoop k step C props off words = .ok ({ C with props_indices := pi }, ws) ∧
      pi.size = C.props_indices.size ∧ ws.size = words.size ∧
      ∀ i, i < k →
        gt ws i = (if (gt props (gt C.fragments_ids i)).is_marked (gt C.props_indices (gt C.fragments_ids i)) off = true ∧
          (gt props (gt C.fragments_ids i)).marker (gt C.props_indices (gt C.fragments_ids i)) = OOR_MARK
          then u (gt words i) else gt words i) ∧
        gt pi (gt C.fragments_ids i) = gt C.props_indices (gt C.fragments_ids i) +
          (if (gt props (gt C.fragments_ids i)).is_marked (gt C.props_indices (gt C.fragments_ids i)) off then 1 else 0) := by
  unfold prepLoop
  obtain ⟨s, e, pi, ws, hs, h1, h2, h3, _⟩ := forN_inv (n := k) (s := (C, words)) (f := fun i s => do
      let j ← rd s.1.fragments_ids i
      let P ← rd props j
      let idx ← rd s.1.props_indices j
      if P.is_marked idx off then do
        let words ← if P.marker idx = OOR_MARK then step s.2 i else pure s.2
        let pi ← wr s.1.props_indices j (idx + 1)
        pure ({ s.1 with props_indices := pi }, words)
      else pure s)
    (I := fun t (s : Ctx × Array Nat) => ∃ pi ws, s = ({ C with props_indices := pi }, ws) ∧
      pi.size = C.props_indices.size ∧ ws.size = words.size ∧
      (∀ i, i < t →
        gt ws i = (if (gt props (gt C.fragments_ids i)).is_marked (gt C.props_indices (gt C.fragments_ids i)) off = true ∧
          (gt props (gt C.fragments_ids i)).marker (gt C.props_indices (gt C.fragments_ids i)) = OOR_MARK
          then u (gt words i) else gt words i) ∧
        gt pi (gt C.fragments_ids i) = gt C.props_indices (gt C.fragments_ids i) +
          (if (gt props (gt C.fragments_ids i)).is_marked (gt C.props_indices (gt C.fragments_ids i)) off then 1 else 0)) ∧
      (∀ i, t ≤ i → i < k → gt ws i = gt words i ∧ gt pi (gt C.fragments_ids i) = gt C.props_indices (gt C.fragments_ids i)))
    ⟨C.props_indices, words, rfl, rfl, rfl, by simp, by simp⟩ (by
      rintro t _ ht ⟨pi, ws, rfl, i1, i2, i3, i4⟩
      have hl := hids.lt t ht
      simp only
      rw [rd_gt (a := C.fragments_ids) (by rw [hids.size]; omega), ok_bind, rd_gt (a := props) (by omega), ok_bind,
        rd_gt (a := pi) (by omega), ok_bind, (i4 t le_rfl ht).2]
      by_cases hmk : (gt props (gt C.fragments_ids t)).is_marked (gt C.props_indices (gt C.fragments_ids t)) off = true
      · rw [if_pos hmk]
        by_cases hoor : (gt props (gt C.fragments_ids t)).marker (gt C.props_indices (gt C.fragments_ids t)) = OOR_MARK
        · rw [if_pos hoor, hstep ws t (by omega) (by rw [(i4 t le_rfl ht).1]; exact hL t ht), ok_bind, wr_ok (by omega), ok_bind]
          refine ⟨_, rfl, _, _, rfl, by simp [i1], by simp [i2], ?_, ?_⟩
          · intro i hi
            rw [gt_set (by omega), gt_set (by omega)]
            by_cases h : i = t
            · subst h; rw [if_pos rfl, if_pos rfl, if_pos ⟨hmk, hoor⟩, if_pos hmk, (i4 i le_rfl ht).1]; exact ⟨rfl, rfl⟩
            · rw [if_neg h, if_neg (fun he => h (hids.inj i t (by omega) ht he))]
              exact i3 i (by omega)
          · intro i hi hib
            rw [gt_set (by omega), gt_set (by omega), if_neg (by omega),
              if_neg (fun he => by have := hids.inj i t hib ht he; omega)]
            exact i4 i (by omega) hib
        · rw [if_neg hoor]
          show ∃ s', (wr pi (gt C.fragments_ids t) _ >>= fun pi => (pure ({ C with props_indices := pi }, ws) : Res (Ctx × Array Nat))) = .ok s' ∧ _
          rw [wr_ok (by omega), ok_bind]
          refine ⟨_, rfl, _, _, rfl, by simp [i1], i2, ?_, ?_⟩
          · intro i hi
            rw [gt_set (by omega)]
            by_cases h : i = t
            · subst h; rw [if_pos rfl, if_neg (fun h => hoor h.2), if_pos hmk]; exact ⟨(i4 i le_rfl ht).1, rfl⟩
            · rw [if_neg (fun he => h (hids.inj i t (by omega) ht he))]
              exact i3 i (by omega)
          · intro i hi hib
            rw [gt_set (by omega), if_neg (fun he => by have := hids.inj i t hib ht he; omega)]
            exact i4 i (by omega) hib
      · rw [if_neg hmk]
        refine ⟨_, rfl, pi, ws, rfl, i1, i2, ?_, fun i hi hib => i4 i (by omega) hib⟩
        intro i hi
        by_cases h : i = t
        · subst h; rw [if_neg (fun h => hmk h.1), if_neg hmk]; exact i4 i le_rfl ht
        · exact i3 i (by omega))
  exact ⟨pi, ws, by rw [← hs]; exact e, h1, h2, h3⟩

theorem FecBase.decode_prepare_loop (B : FecBase) (C : Ctx) (props : Array Properties) (off : Nat) (words : Array Nat) :
    B.decode_prepare C props off words = prepLoop B.n_data (fun ws i => wr ws i (B.F.card - 1)) C props off words := rfl

theorem RsGfpFft.decode_prepare_loop (B : FecBase) (b L : Nat) (C : Ctx) (props : Array Properties) (off : Nat) (words : Array Nat) :
    RsGfpFft.decode_prepare B b L C props off words = prepLoop B.n_data (fun ws i => do
      let x ← rd ws i
      wr ws i (wrap b (x + L))) C props off words := by
  unfold RsGfpFft.decode_prepare prepLoop
  congr 1
  funext i s
  congr 1
  funext j
  congr 1
  funext P
  congr 1
  funext idx
  by_cases h1 : P.is_marked idx off = true
  · rw [if_pos h1, if_pos h1]
    by_cases h2 : P.marker idx = OOR_MARK
    · rw [if_pos h2, if_pos h2]
    · rw [if_neg h2, if_neg h2]
  · rw [if_neg h1, if_neg h1]

theorem forN_congr {σ : Type} {f g : Nat → σ → Res σ} {n : Nat} (s : σ) (h : ∀ i v, i < n → f i v = g i v) : forN n s f = forN n s g := by
  induction n with
  | zero => rfl
  | succ n ih =>
    rw [forN, forN, ih (fun i v hi => h i v (by omega))]
    congr 1
    funext v
    exact h n v (by omega)

/-- only the products of the words matter -/
theorem FecBase.decode_apply_congr {B : FecBase} {C : Ctx} {out ws ws' : Array Nat} (h1 : B.n_data ≤ ws.size) (h2 : B.n_data ≤ ws'.size)
    (h3 : B.n_data ≤ C.inv_A_i.size) (h : ∀ i, i < B.n_data → B.F.mul (gt ws i) (gt C.inv_A_i i) = B.F.mul (gt ws' i) (gt C.inv_A_i i)) :
    B.decode_apply C out ws = B.decode_apply C out ws' := by
  unfold FecBase.decode_apply
  have : ∀ v : Array Nat, forN B.n_data v (fun i v => do
      let j ← rd C.fragments_ids i
      let x ← rd ws i
      let a ← rd C.inv_A_i i
      wr v j (B.F.mul x a)) = forN B.n_data v (fun i v => do
      let j ← rd C.fragments_ids i
      let x ← rd ws' i
      let a ← rd C.inv_A_i i
      wr v j (B.F.mul x a)) := by
    intro v
    refine forN_congr v (fun i v hi => ?_)
    congr 1
    funext j
    rw [rd_gt (a := ws) (by omega), rd_gt (a := ws') (by omega), rd_gt (a := C.inv_A_i) (by omega)]
    simp only [ok_bind]
    rw [h i hi]
  simp only [this]

/-! ### decoding -/

/-- a non-systematic code over `Z/pZ` whose marked words stand for the symbols `u x` -/
structure MarkCode (E : Fec Ctx) (B : FecBase) (p : Nat) [Fact p.Prime] (S : B.F.Sim (ZMod p)) (k m n len_2k : Nat) (g g2 : ZMod p)
    (okLen : Nat → Prop) (u : Nat → Nat) (step : Array Nat → Nat → Res (Array Nat)) : Prop where
  base : E.base = B
  sys : B.sys = false
  hw : WordSize B.word_size
  n_data : B.n_data = k
  n_parities : B.n_parities = m
  code_len : B.code_len = k + m
  n_outputs : B.n_outputs = k + m
  hn : B.n = n
  le : k + m ≤ n
  V : ∀ c, S.V c ↔ c < p
  φ : ∀ c, S.φ c = (c : ZMod p)
  env : DecEnv (fun _ : Unit => S) B.fft B.fft_2k k n len_2k (fun _ => g) (fun _ => g2) okLen
  rpSize : B.r_powers.size = n
  rp : ∀ i, i < n → S.V (gt B.r_powers i) ∧ S.φ (gt B.r_powers i) = g ^ i
  init : ∀ ids props mem, E.init_context_dec ids props mem = B.init_context_dec ids props mem
  dec : ∀ C out props off words, E.decode C out props off words = prepLoop B.n_data step C props off words >>= fun s => B.decode_apply s.1 out s.2
  hstep : ∀ ws i, i < ws.size → gt ws i < 256 ^ B.word_size → step ws i = .ok (ws.setIfInBounds i (u (gt ws i)))
  mul : ∀ x a, x < 256 ^ B.word_size → a < p → B.F.mul x a = B.F.mul (x % p) a
  mulU : ∀ x a, x < 256 ^ B.word_size → a < p → B.F.mul (u x) a = B.F.mul (u x % p) a


namespace MarkCode
variable {E : Fec Ctx} {B : FecBase} {p : Nat} [Fact p.Prime] {S : B.F.Sim (ZMod p)} {k m n len_2k : Nat} {g g2 : ZMod p}
  {okLen : Nat → Prop} {u : Nat → Nat} {step : Array Nat → Nat → Res (Array Nat)}

/-- the polynomial through the symbols of the fragments `ids` -/
noncomputable def interp (g : ZMod p) (k : Nat) (ids : Array Nat) (y : Nat → Nat) : (ZMod p)[X] :=
  Lagrange.interpolate (Finset.range k) (fun i => g ^ gt ids i) (fun i => ((y i : Nat) : ZMod p))

/-- decoding the words of a row -/
theorem dec_words (M : MarkCode E B p S k m n len_2k g g2 okLen u step) {ids : Array Nat} {props : Array Properties} (mem : Nat → Nat)
    (hids : ValidIds k (k + m) ids) (hps : props.size = k + m) {W : Nat → Nat → Nat} (hW : ∀ i t, i < k → W i t < 256 ^ B.word_size) :
    ∃ (Good : Ctx → Nat → Prop) (C : Ctx) (props' : Array Properties), E.init_context_dec ids props mem = .ok (C, props') ∧ Good C 0 ∧
      ∀ {t : Nat} {C : Ctx} {out words : Array Nat}, Good C t → out.size = k → k ≤ words.size → (∀ i, i < k → gt words i = W i t) →
        ∃ C' r, E.decode C out props' t words = .ok (C', r) ∧ r.size = k ∧ Good C' (t + 1) ∧
          ∀ i, i < k → gt r i = ((interp g k ids (fun i => if MarkedAt (gt props (gt ids i)) t then u (W i t) else W i t)).coeff i).val := by
  have hp0 : 0 < p := (Fact.out : p.Prime).pos
  have hkd := M.n_data
  have hle := M.le
  have env := M.env
  rw [← hkd] at env
  have hids' : ValidIds k n ids := ⟨hids.size, hids.inj, fun i hi => by have := hids.lt i hi; omega⟩
  obtain ⟨C, eC, hC1, hC2⟩ := FecBase.init_context_dec_spec (B := B) env M.hn (ids := ids) (props := props) mem (by rw [hkd]; exact hids')
    M.rpSize (fun _ i hi => M.rp i hi)
  rw [hkd] at hC2
  have hsort : ∀ i, i < k → gt (props.map Properties.sort) (gt ids i) = (gt props (gt ids i)).sort := fun i hi =>
    gt_map (by rw [hps]; exact hids.lt i hi)
  refine ⟨fun C t => C.Good S k n len_2k g g2 ids ∧ C.props_indices.size = k + m ∧ ∀ i, i < k →
      gt C.props_indices (gt ids i) = walk (gt props (gt ids i)).sort t, C, props.map Properties.sort, by rw [M.init]; exact eC,
      ⟨hC2 (), by rw [hC1]; simp [hps], fun i hi => ?_⟩, ?_⟩
  · rw [hC1, gt_replicate (by rw [hps]; exact hids.lt i hi)]; rfl
  · rintro t C out words ⟨c1, c2, c3⟩ hout hws hwords
    have hidsC : C.fragments_ids = ids := c1.idsEq
    obtain ⟨pi, ws, ep, p1, p2, p3⟩ := prepLoop_spec (k := B.n_data) (L := 256 ^ B.word_size) M.hstep (C := C)
      (props := props.map Properties.sort) (off := t) (words := words) (by rw [hkd]; intro i hi; rw [hwords i hi]; exact hW i t hi)
      (N := k + m) (by rw [hidsC, hkd]; exact hids) (by simp [hps]) (by omega) (by rw [hkd]; exact hws)
    rw [hidsC, hkd] at p3
    set y : Nat → Nat := fun i => if MarkedAt (gt props (gt ids i)) t then u (W i t) else W i t with hy
    have hwsy : ∀ i, i < k → gt ws i = y i := by
      intro i hi
      rw [(p3 i hi).1, hsort i hi, c3 i hi, hwords i hi, hy]
      simp only
      by_cases hm : MarkedAt (gt props (gt ids i)) t
      · rw [if_pos hm, if_pos ((walk_marked _ _).mpr hm)]
      · rw [if_neg hm, if_neg (fun h => hm ((walk_marked _ _).mp h))]
    have c1' : ({ C with props_indices := pi } : Ctx).Good S k n len_2k g g2 ids :=
      ⟨c1.len, c1.idsEq, c1.invSize, c1.inv, c1.ASize, c1.A, c1.v1n, c1.v2n, c1.v12, c1.v22⟩
    have hval : ∀ i, i < k → gt (ws.map (· % p)) i = y i % p := fun i hi => by
      rw [gt_map (by omega), hwsy i hi]
    have hcong : B.decode_apply { C with props_indices := pi } out ws = B.decode_apply { C with props_indices := pi } out (ws.map (· % p)) := by
      refine FecBase.decode_apply_congr (by omega) (by simp; omega) (by rw [c1'.invSize]; omega) (fun i hi => ?_)
      rw [hkd] at hi
      rw [hval i hi, hwsy i hi, hy]
      simp only
      have ha := (M.V _).mp (c1'.inv i hi).1
      split
      · exact M.mulU _ _ (hW i t hi) ha
      · exact M.mul _ _ (hW i t hi) ha
    have hxinj : Set.InjOn (fun i => g ^ gt ids i) (Finset.range k) := by
      intro i hi j hj he
      have hi' : i < k := by simpa using hi
      have hj' : j < k := by simpa using hj
      exact hids.inj i j hi' hj' ((M.env.fft ()).root.pow_inj (hids'.lt i hi') (hids'.lt j hj') he)
    obtain ⟨C', r, er, sr, pr, gr, vr, hr⟩ := FecBase.decode_apply_spec (B := B) (S := S) M.env.kpos M.env.kn M.env.k2 hkd
      (M.env.fft ()) (M.env.fft_2k ()) c1' hids.size hids'.lt
      (fun i hi j hj he => hids.inj i j (by simpa using hi) (by simpa using hj) he) (output := out) (words := ws.map (· % p)) hout
      (by simp; omega) (fun i hi => by rw [hval i hi, M.V]; exact Nat.mod_lt _ hp0)
    refine ⟨C', r, ?_, sr, ⟨gr, ?_, ?_⟩, ?_⟩
    · rw [M.dec, ep, ok_bind]
      show B.decode_apply { C with props_indices := pi } out ws = _
      rw [hcong, er]
    · rw [pr]; show pi.size = _; omega
    · intro i hi
      rw [pr]
      show gt pi (gt ids i) = _
      rw [(p3 i hi).2, hsort i hi, c3 i hi, walk]
    · intro i hi
      have h6 := hr (interp g k ids y) (by
          have := Lagrange.degree_interpolate_lt (fun i => ((y i : Nat) : ZMod p)) hxinj
          rwa [Finset.card_range] at this) (fun i hi => by
          rw [hval i hi, M.φ, ZMod.natCast_mod]
          exact (Lagrange.eval_interpolate_at_node (fun i => ((y i : Nat) : ZMod p)) hxinj (Finset.mem_range.mpr hi)).symm) i hi
      rw [M.φ] at h6
      rw [← h6, ZMod.val_natCast_of_lt ((M.V _).mp (vr i hi))]

theorem interp_gen {x : Nat → ZMod p} (hx : Set.InjOn x (Finset.range k)) (y : Nat → ZMod p) :
    (Lagrange.interpolate (Finset.range k) x y).degree < k ∧ (∀ i, i < k → (Lagrange.interpolate (Finset.range k) x y).eval (x i) = y i) ∧
    ∀ Q : (ZMod p)[X], Q.degree < k → (∀ i, i < k → Q.eval (x i) = y i) → Q = Lagrange.interpolate (Finset.range k) x y := by
  refine ⟨?_, fun i hi => ?_, fun Q hQ hq => ?_⟩
  · have := Lagrange.degree_interpolate_lt y hx
    rwa [Finset.card_range] at this
  · exact Lagrange.eval_interpolate_at_node _ hx (Finset.mem_range.mpr hi)
  · exact Lagrange.eq_interpolate_of_eval_eq y hx (by rwa [Finset.card_range]) (fun i hi => hq _ (Finset.mem_range.mp hi))

theorem interp_spec {ids : Array Nat} (hx : Set.InjOn (fun i => g ^ gt ids i) (Finset.range k)) (y : Nat → Nat) :
    (interp g k ids y).degree < k ∧ (∀ i, i < k → (interp g k ids y).eval (g ^ gt ids i) = (y i : ZMod p)) ∧
    ∀ Q : (ZMod p)[X], Q.degree < k → (∀ i, i < k → Q.eval (g ^ gt ids i) = (y i : ZMod p)) → Q = interp g k ids y :=
  interp_gen hx (fun i => ((y i : Nat) : ZMod p))

theorem wordAt_flat_mod {w T t : Nat} {f : Nat → Nat} (ht : t < T) : wordAt w (flat w f T) t = f t % 256 ^ w := by
  rw [flat_mod (g := fun t => f t % 256 ^ w) (fun _ _ => rfl), wordAt_flat ht (Nat.mod_lt _ (by positivity))]

/-- decoding of fragments and properties that may contain anything -/
theorem decodesPoly (M : MarkCode E B p S k m n len_2k g g2 okLen u step) {T : Nat} {datas pars outs : Array (Option (List Nat))}
    {props : Array Properties} (mem : Nat → Nat) (h : AnyWords false B.word_size k (k + m) T datas pars)
    (hq : props.size = k + m) (ho : outs.size = k) : DecodesPoly E g u B.word_size k T datas pars outs props mem := by
  have hb := M.base
  have hkp : 0 < k := M.env.kpos
  set w := B.word_size with hw
  have hsys : E.base.sys = false := by rw [hb, M.sys]
  have hkd : E.base.n_data = k := by rw [hb, M.n_data]
  have hno : E.base.n_outputs = k + m := by rw [hb, M.n_outputs]
  have hws : E.base.word_size = w := by rw [hb]
  have hidl : E.base.idList (datas.map Option.isSome) (pars.map Option.isSome) = picked k pars := by
    have := ids_picked E.base (datas := datas) (pars := pars) (fun hs => by rw [hsys] at hs; cases hs) (by rw [hno]; exact h.psize)
    change E.base.idList _ _ = _ at this
    rw [hsys, hkd] at this
    exact this
  have hplen : (picked k pars).length = k := by
    unfold picked
    rw [List.length_take]
    have h1 : (present (pars.map Option.isSome) pars.size).length = nAvail pars := present_eq_avail pars rfl
    have h2 : present (pars.map Option.isSome) pars.size = (List.range pars.size).filter (fun i => (gt pars i).isSome) := by
      unfold present
      refine List.filter_congr fun i hi => ?_
      rw [gt_map (List.mem_range.mp hi)]
    rw [← h2, h1]
    have : k ≤ nAvail pars := h.enough
    omega
  have hmem : ∀ i, i < k → gt (picked k pars).toArray i ∈ picked k pars := fun i hi =>
    (Gf2nRec.getD_mem_iff hplen).mp ⟨i, hi, rfl⟩
  have hpl : (present (pars.map Option.isSome) (k + m)).length = nAvail pars := present_eq_avail pars h.psize
  have hbytes : ∀ f, ∀ x ∈ (gt pars f).getD [], x < 256 := by
    intro f x hx
    by_cases hg : f < pars.size
    · rw [gt_eq hg] at hx
      exact h.bytes _ (Array.getElem_mem_toList hg) x hx
    · have h0 : gt pars f = none := by
        rw [gt, Array.getD_eq_getD_getElem?, Array.getElem?_eq_none (by omega)]; rfl
      rw [h0] at hx
      simp at hx
  set ids := (picked k pars).toArray with hids
  set W : Nat → Nat → Nat := fun i t => wordAt w ((gt pars (gt ids i)).getD []) t with hW
  set y : Nat → Nat → Nat := fun t i => if MarkedAt (gt props (gt ids i)) t then u (W i t) else W i t with hy
  set rows : Nat → Array Nat := fun t => Array.ofFn (fun i : Fin k => ((interp g k ids (y t)).coeff i).val) with hrows
  have hrg : ∀ t i, i < k → gt (rows t) i = ((interp g k ids (y t)).coeff i).val := fun t i hi => by rw [hrows]; exact gt_ofFn hi
  have hfs : ∀ f, Fec.fragStream E.base.sys E.base.n_data datas pars f = (gt pars f).getD [] := fun f => by
    unfold Fec.fragStream; rw [hsys]; rfl
  obtain ⟨hv, res, e, sr, hr⟩ := Fec.decode_streams_horizontal_any (E := E) (by rw [hb]; exact M.hw) (by omega)
    (by rw [hb, M.code_len, M.n_data, M.n_parities]) (T := T) (rows := rows) (datas := datas) (pars := pars) (outs := outs) (props := props) mem
    (fun hs => by rw [hsys] at hs; cases hs) (by rw [hno]; exact h.psize) (by rw [hno]; exact hq) (by rw [hkd]; exact ho)
    (by
      unfold FecBase.dataList
      rw [hsys, if_neg (by simp), hkd]
      simp; omega)
    (by
      rw [hno, hpl, hkd]
      have : k ≤ nAvail pars := h.enough
      omega)
    (by
      rw [hidl, hkd, hws]
      intro i hi
      have := hfs (gt ids i)
      rw [hkd] at this
      rw [this]
      exact h.full _ (hmem i hi))
    (by
      rw [hidl, hkd, hws]
      obtain ⟨j, hj, hl⟩ := h.last
      obtain ⟨i, hi, e⟩ := (Gf2nRec.getD_mem_iff hplen).mpr hj
      have := hfs (gt ids i)
      rw [hkd] at this
      exact ⟨i, hi, by rw [this, e]; exact hl⟩)
    (by
      rw [hidl, hsys, if_neg (by simp), hkd, hno]
      intro hv
      obtain ⟨Good, C, p', e1, g0, hd⟩ := M.dec_words (props := props) mem hv hq (W := W) (fun i t hi => wordAt_lt (hbytes _) t)
      refine ⟨Good, C, p', e1, g0, fun {t C out words} _ a2 a3 a4 a5 => ?_⟩
      obtain ⟨C', r, q1, q2, q3, q4⟩ := hd a2 a3 (by rw [a4, hb, M.code_len]; simp) (fun i hi => by
        rw [a5 i hi, hws]
        have := hfs (gt ids i)
        rw [hkd, hsys] at this
        rw [this])
      exact ⟨C', r, q1, q2, q3, fun i hi => by rw [q4 i hi, hrg t i hi]⟩)
  rw [hidl, hkd, hsys, if_neg (by simp), hno] at hv
  rw [hkd] at sr hr
  rw [hws] at hr
  set o : Array (List Nat) := Array.ofFn (fun i : Fin k => flat w (fun t => gt (rows t) i) T) with hout
  have hgo : ∀ i, i < k → gt o i = flat w (fun t => gt (rows t) i) T := fun i hi => by rw [hout, gt_ofFn hi]
  have hxinj : Set.InjOn (fun i => g ^ gt ids i) (Finset.range k) := by
    intro i hi j hj he
    have hi' : i < k := by simpa using hi
    have hj' : j < k := by simpa using hj
    have := M.le
    exact hv.inj i j hi' hj' ((M.env.fft ()).root.pow_inj (by have := hv.lt i hi'; omega) (by have := hv.lt j hj'; omega) he)
  have hsym : ∀ i t, i < k → symbolAt w u ((gt pars (gt ids i)).getD []) (gt props (gt ids i)) t = y t i := by
    intro i t hi
    unfold symbolAt
    rw [Fec.wordAt_eq]
  refine ⟨res, o, e, sr, by simp [hout], fun i hi => ⟨by rw [hgo i hi, flat_length], fun x hx => ?_⟩, fun i hi => ?_, fun t ht => ?_⟩
  · rw [hgo i hi] at hx
    obtain ⟨t, _, hh⟩ := List.mem_flatMap.mp hx
    exact leBytes_lt _ _ x hh
  · rw [hr i hi, hgo i hi]
  · obtain ⟨d1, d2, d3⟩ := interp_spec (g := g) hxinj (y t)
    refine ⟨interp g k ids (y t), d1, fun j hj => ?_, fun Q hQ hq => d3 Q hQ fun i hi => ?_, fun i hi => ?_⟩
    · obtain ⟨i, hi, rfl⟩ := (Gf2nRec.getD_mem_iff hplen).mpr hj
      refine (d2 i hi).trans (congrArg Nat.cast (hsym i t hi).symm)
    · exact (hq _ (hmem i hi)).trans (congrArg Nat.cast (hsym i t hi))
    · rw [Fec.wordAt_eq, hgo i hi, ← hrg t i hi]
      exact wordAt_flat_mod ht

end MarkCode

/-- the symbols of an encoding -/
theorem Fec.encodesPoly {Γ : Type} {E : Fec Γ} {st : Array Nat → Nat → Nat} {mk : Array Nat → Nat → Option Nat} {A : Array Nat → Prop}
    (hE : E.HSpec st mk A) (hsys : E.base.sys = false) {p : Nat} {g : ZMod p} {u : Nat → Nat} {poly : Array Nat → (ZMod p)[X]}
    (hdeg : ∀ a, (poly a).degree < a.size)
    (hco : ∀ a i, IsRow E.base.word_size E.base.n_data a → i < E.base.n_data → (poly a).coeff i = ((gt a i : Nat) : ZMod p))
    (hmk : ∀ a f, mk a f = none ∨ mk a f = some OOR_MARK)
    (hsy : ∀ a f, IsRow E.base.word_size E.base.n_data a → f < E.base.n_outputs →
      (poly a).eval (g ^ f) = ((if mk a f = none then st a f else u (st a f) : Nat) : ZMod p)) :
    EncodesPoly E g u E.base.word_size E.base.n_data E.base.n_outputs := by
  intro data T mem hd
  obtain ⟨fr, pr, e, s1, s2, hf⟩ := encode_streams_horizontal_spec hE (data := data)
    (outs := Array.replicate E.base.n_outputs []) (props := Array.replicate E.base.n_outputs .empty) mem (T := T)
    hd.size (by simp) (by simp) hd.bytes ⟨hd.full, hd.last⟩
  refine ⟨fr, pr, e, s1, s2, fun f hf' => ?_, fun t ht => ?_⟩
  · rw [(hf f hf').1, gt_replicate hf', List.nil_append, flat_length]
    refine ⟨rfl, fun x hx => ?_⟩
    obtain ⟨t, _, hh⟩ := List.mem_flatMap.mp hx
    exact leBytes_lt _ _ x hh
  set a := rowAt E.base.word_size E.base.n_data (gt data) t with ha
  have hrow : IsRow E.base.word_size E.base.n_data a := rowAt_isRow hd.bytes t
  refine ⟨poly a, by rw [← hrow.1]; exact hdeg a, fun i hi => ?_, fun f hf' => ?_⟩
  · rw [hco a i hrow hi, ha, rowAt_gt hi, Fec.wordAt_eq]
  · rw [hsy a f hrow hf']
    congr 1
    have hm : MarkedAt (gt pr f) t ↔ mk a f = some OOR_MARK := by
      unfold MarkedAt
      rw [(hf f hf').2]
      simp only [mem_marksOf]
      constructor
      · exact fun h => h.1.2
      · intro h
        refine ⟨⟨ht, h⟩, fun q hq _ => ?_, fun s _ => ?_⟩
        · rcases hmk (rowAt E.base.word_size E.base.n_data (gt data) q.1) f with h' | h'
          · rw [h'] at hq; cases hq.2
          · rw [h'] at hq; exact (Option.some.inj hq.2).le
        · refine List.nodup_iff_count_le_one.mp ?_ s
          have := marksOf_sorted (fun t => mk (rowAt E.base.word_size E.base.n_data (gt data) t) f) T
          exact List.Pairwise.map Prod.fst (fun _ _ h => Nat.ne_of_lt h) this
    have hwd : word E.base.word_size (gt fr f) t = st a f := by
      rw [Fec.wordAt_eq, (hf f hf').1, gt_replicate hf', List.nil_append, wordAt_flat ht (hE.lt hrow hf' : st _ f < _)]
    unfold symbolAt
    rw [hwd]
    rcases hmk a f with h | h
    · rw [if_pos h, if_neg (fun h' => by rw [hm, h] at h'; cases h')]
    · rw [if_neg (by rw [h]; simp), if_pos (hm.mpr h)]

/-! ### the two codes -/

theorem RsFnt.markCode {B : FecBase} {p e k m : Nat} [Fact p.Prime] {S : B.F.Sim (ZMod p)} {n len_2k : Nat} {g g2 : ZMod p} {okLen : Nat → Prop}
    (G : RsFnt.Good B p e k m S n len_2k g g2 okLen) (hsys : B.sys = false) (hw : WordSize B.word_size) :
    MarkCode (RsFnt.fec B) B p S k m n len_2k g g2 okLen (fun _ => 2 ^ (8 * B.word_size)) (fun ws i => wr ws i (B.F.card - 1)) where
  base := rfl
  sys := hsys
  hw := hw
  n_data := G.n_data
  n_parities := G.n_parities
  code_len := G.code_len
  n_outputs := by rw [G.n_outputs, hsys]; rfl
  hn := G.hn
  le := G.le
  V := G.V
  φ := G.φ
  env := G.env
  rpSize := G.rpSize
  rp := fun i hi => ⟨(G.V _).mpr (G.rp i hi).1, by rw [G.φ]; exact (G.rp i hi).2⟩
  init := fun _ _ _ => rfl
  dec := fun _ _ _ _ _ => rfl
  hstep := fun ws i hi _ => by
    have : B.F.card - 1 = 2 ^ (8 * B.word_size) := by rw [G.card, G.hp, G.he]; rfl
    rw [wr_ok hi, this]
  mul := fun x a hx _ => by
    have := G.hp
    have h2 := G.he
    rw [← two_pow_8] at hx
    rw [Nat.mod_eq_of_lt (by rw [this, h2]; omega)]
  mulU := fun x a hx _ => by
    have := G.hp
    have h2 := G.he
    rw [Nat.mod_eq_of_lt (by rw [this, h2]; omega)]

theorem RsGfpFft.markCode {B : FecBase} {b p k m w : Nat} [Fact p.Prime] {S : B.F.Sim (ZMod p)} {n len_2k : Nat} {g2 : ZMod p}
    (G : FftCode.Good B b p (256 ^ w) k m S n len_2k g2) (hw : B.word_size = w) (hφ : ∀ c, S.φ c = (c : ZMod p)) (hb : 2 * 256 ^ w ≤ 2 ^ b)
    (hmul : ∀ x a, x < 2 * 256 ^ w → a < p → B.F.mul x a = x * a % p) :
    MarkCode (RsGfpFft.fec b (B, 256 ^ w)) B p S k m n len_2k (S.φ B.r) g2 (fun m => m = n) (fun x => x + 256 ^ w)
      (fun ws i => do
        let x ← rd ws i
        wr ws i (wrap b (x + 256 ^ w))) where
  base := rfl
  sys := G.sys
  hw := G.hw
  n_data := G.n_data
  n_parities := G.n_parities
  code_len := G.code_len
  n_outputs := G.n_outputs
  hn := G.hn
  le := G.le
  V := G.D.val
  φ := hφ
  env := G.env
  rpSize := G.rpSize
  rp := G.rp
  init := fun _ _ _ => rfl
  dec := fun C out props off words => by
    show (RsGfpFft.decode_prepare B b (256 ^ w) C props off words >>= fun s => B.decode_apply s.1 out s.2) = _
    rw [RsGfpFft.decode_prepare_loop]
  hstep := fun ws i hi hx => by
    rw [hw] at hx
    rw [rd_gt hi, ok_bind, wr_ok hi, show wrap b (gt ws i + 256 ^ w) = gt ws i + 256 ^ w from Nat.mod_eq_of_lt (by omega)]
  mul := fun x a hx ha => by
    rw [hw] at hx
    have hp := G.qL2
    have hp0 : 0 < p := (Fact.out : p.Prime).pos
    have : x % p < p := Nat.mod_lt _ hp0
    rw [hmul x a (by omega) ha, hmul (x % p) a (by omega) ha, Nat.mod_mul_mod]
  mulU := fun x a hx ha => by
    rw [hw] at hx
    have hp := G.qL2
    have hp0 : 0 < p := (Fact.out : p.Prime).pos
    have : (x + 256 ^ w) % p < p := Nat.mod_lt _ hp0
    rw [hmul (x + 256 ^ w) a (by omega) ha, hmul ((x + 256 ^ w) % p) a (by omega) ha, Nat.mod_mul_mod]

theorem RsFnt.encodesPoly {B : FecBase} {p e k m : Nat} [Fact p.Prime] {S : B.F.Sim (ZMod p)} {n len_2k : Nat} {g g2 : ZMod p} {okLen : Nat → Prop}
    (G : RsFnt.Good B p e k m S n len_2k g g2 okLen) (hsys : B.sys = false) (hw : WordSize B.word_size) :
    EncodesPoly (RsFnt.fec B) g (fun _ => 2 ^ (8 * B.word_size)) B.word_size k (k + m) := by
  have H := Fec.encodesPoly (RsFnt.hspec G hsys hw) hsys (g := g) (u := fun _ => 2 ^ (8 * B.word_size)) (poly := polyOf S) (polyOf_degree_lt S)
    (fun a i _ _ => by rw [polyOf_coeff, G.φ]) (fun a f => by unfold RsFnt.markOf; split <;> simp) (fun a f _ _ => by
      have hs : (polyOf S a).eval (g ^ f) = (RsFnt.sym S g a f : ZMod p) := by unfold RsFnt.sym; rw [ZMod.natCast_zmod_val]
      rw [hs]
      congr 1
      unfold RsFnt.markOf RsFnt.stored
      by_cases h : RsFnt.sym S g a f = 2 ^ e
      · simp only [h, if_true]
        rw [if_neg (by simp), G.he]
      · simp only [h, if_false, if_true])
  have e1 : (RsFnt.fec B).base.n_data = k := G.n_data
  have e2 : (RsFnt.fec B).base.n_outputs = k + m := by show B.n_outputs = _; rw [G.n_outputs, hsys]; rfl
  rw [e1, e2] at H
  exact H

theorem RsGfpFft.encodesPoly {B : FecBase} {b p k m w : Nat} [Fact p.Prime] {S : B.F.Sim (ZMod p)} {n len_2k : Nat} {g2 : ZMod p}
    (G : FftCode.Good B b p (256 ^ w) k m S n len_2k g2) (hw : B.word_size = w) (hφ : ∀ c, S.φ c = (c : ZMod p)) (hpb : p ≤ 2 ^ b) :
    EncodesPoly (RsGfpFft.fec b (B, 256 ^ w)) (S.φ B.r) (fun x => x + 256 ^ w) w k (k + m) := by
  have H := Fec.encodesPoly (E := RsGfpFft.fec b (B, 256 ^ w)) (FftCode.hspec G (RsGfpFft.is_fec b _)
    (RsGfpFft.post_spec (by positivity) (G.code_len.trans G.n_outputs.symm)) (RsGfpFft.prep_spec hpb)) G.sys (g := S.φ B.r)
    (u := fun x => x + 256 ^ w) (poly := polyOf S) (polyOf_degree_lt S)
    (fun a i _ _ => by rw [polyOf_coeff, hφ]) (fun a f => by unfold FftCode.markOf; split <;> simp) (fun a f ha _ => by
      obtain ⟨h1, h2⟩ := FftCode.sym_spec G ha f
      rw [← h2, hφ]
      congr 1
      have hq := G.qL2
      unfold FftCode.markOf FftCode.stored
      by_cases h : 256 ^ w ≤ FftCode.sym B a f
      · rw [if_pos h, if_neg (by simp), Nat.mod_eq_sub_mod h, Nat.mod_eq_of_lt (by omega)]
        omega
      · rw [if_neg h, if_pos rfl, Nat.mod_eq_of_lt (by omega)])
  have e1 : (RsGfpFft.fec b (B, 256 ^ w)).base.n_data = k := G.n_data
  have e2 : (RsGfpFft.fec b (B, 256 ^ w)).base.n_outputs = k + m := G.n_outputs
  have e3 : (RsGfpFft.fec b (B, 256 ^ w)).base.word_size = w := hw
  rw [e1, e2, e3] at H
  exact H

end Quad
