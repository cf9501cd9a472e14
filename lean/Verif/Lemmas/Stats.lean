import Mathlib.Algebra.BigOperators.Group.Finset.Basic
import Verif.Spec.Stats
import Verif.Lemmas.Lengths

/-! # Lemmas on the counters -/

namespace Quad
open Spec

/-- one more operation -/
def Counters.addOne (d : Nat) (t : Timing) (c : Counters) : Counters where
  usec := wrap 64 (c.usec + t.usec)
  cycles := wrap 64 (c.cycles + elapsed t / d)
  ops := wrap 64 (c.ops + 1)

theorem Counters.add_ok {d : Nat} (h : 0 < d) (t : Timing) (c : Counters) : c.add d t = .ok (c.addOne d t) := by
  unfold Counters.add
  rw [if_neg (by omega)]
  rfl

/-- `n` more operations -/
def Counters.addAll : Nat → (Nat → Nat) → (Nat → Timing) → Counters → Counters
  | 0, _, _, c => c
  | n + 1, d, clk, c => addAll n (fun i => d (i + 1)) (later clk) (c.addOne (d 0) (clk 0))

theorem Counters.addAll_succ {n : Nat} {d : Nat → Nat} {clk : Nat → Timing} {c : Counters} :
    c.addAll (n + 1) d clk = (c.addOne (d 0) (clk 0)).addAll n (fun i => d (i + 1)) (later clk) := rfl

theorem Counters.addAll_eq {n : Nat} {d : Nat → Nat} {clk : Nat → Timing} {c : Counters} (h1 : c.ops < 2 ^ 64) (h2 : c.usec < 2 ^ 64)
    (h3 : c.cycles < 2 ^ 64) : c.addAll n d clk =
      { ops := (c.ops + n) % 2 ^ 64, usec := (c.usec + ∑ i ∈ Finset.range n, (clk i).usec) % 2 ^ 64,
        cycles := (c.cycles + ∑ i ∈ Finset.range n, elapsed (clk i) / d i) % 2 ^ 64 } := by
  induction n generalizing d clk c with
  | zero =>
    show c = _
    simp only [Finset.range_zero, Finset.sum_empty, Nat.add_zero, Nat.mod_eq_of_lt h1, Nat.mod_eq_of_lt h2, Nat.mod_eq_of_lt h3]
  | succ n ih =>
    show (c.addOne (d 0) (clk 0)).addAll n _ _ = _
    rw [ih (Nat.mod_lt _ (by norm_num)) (Nat.mod_lt _ (by norm_num)) (Nat.mod_lt _ (by norm_num)), Finset.sum_range_succ', Finset.sum_range_succ']
    unfold Counters.addOne wrap later
    simp only [Nat.mod_add_mod]
    refine Counters.mk.injEq .. |>.mpr ⟨?_, ?_, ?_⟩ <;> congr 1 <;> omega

theorem Counters.addAll_empty {n : Nat} {d : Nat → Nat} {clk : Nat → Timing} : Counters.addAll n d clk {} = describes n d clk := by
  rw [Counters.addAll_eq (by norm_num) (by norm_num) (by norm_num)]
  simp [describes]

theorem map_bindR {α β γ : Type} {x : Res α} {f : α → Res β} {g : β → γ} : Except.map g (x >>= f) = x >>= fun a => Except.map g (f a) := by
  cases x <;> rfl

/-! ## words -/

namespace Fec
variable {Γ : Type} {E : Fec Γ}

theorem encLoopS_erase (hw : 0 < E.base.word_size) {fuel : Nat} {ins : Array (Option (List Nat))} {outs : Array (List Nat)}
    {props : Array Properties} {words output : Array Nat} {off : Nat} {clk : Nat → Timing} {c : Counters} :
    Except.map Prod.fst (E.encLoopS fuel ins outs props words output off clk c) = E.encLoop fuel ins outs props words output off := by
  induction fuel generalizing ins outs props words output off clk c with
  | zero => rfl
  | succ fuel ih =>
    unfold encLoopS encLoop
    simp only [map_bindR]
    congr 1
    funext ⟨ins, words, cont⟩
    cases cont
    · rfl
    · simp only [if_true, map_bindR, Counters.add_ok hw, ok_bind, ih]

theorem decLoopS_erase (hw : 0 < E.base.word_size) {ids apar : Array Nat} {nd fuel : Nat} {datas pars outs : Array (Option (List Nat))}
    {props : Array Properties} {C : Γ} {words output : Array Nat} {off : Nat} {clk : Nat → Timing} {c : Counters} :
    Except.map Prod.fst (E.decLoopS ids apar nd fuel datas pars outs props C words output off clk c) =
      E.decLoop ids apar nd fuel datas pars outs props C words output off := by
  induction fuel generalizing datas pars outs props C words output off clk c with
  | zero => rfl
  | succ fuel ih =>
    have key : ∀ x : Array (Option (List Nat)) × Array Nat × Bool, Except.map Prod.fst (if x.2.2 = true then do
          let y ← readRow E.base.word_size (E.base.n_data - nd) nd (fun i => rd apar i) pars x.2.1
          if y.2.2 = true then do
            let z ← E.decode C output props off y.2.1
            let c ← c.add E.base.word_size (clk 0)
            let outs ← writeData E.base.word_size E.base.n_data z.2 outs
            decLoopS E ids apar nd fuel x.1 y.1 outs props z.1 y.2.1 z.2 (off + 1) (later clk) c
          else pure (outs, c)
        else pure (outs, c)) = (if x.2.2 = true then do
          let y ← readRow E.base.word_size (E.base.n_data - nd) nd (fun i => rd apar i) pars x.2.1
          if y.2.2 = true then do
            let z ← E.decode C output props off y.2.1
            let outs ← writeData E.base.word_size E.base.n_data z.2 outs
            decLoop E ids apar nd fuel x.1 y.1 outs props z.1 y.2.1 z.2 (off + 1)
          else pure outs
        else pure outs) := by
      rintro ⟨datas, words, cont⟩
      cases cont
      · rfl
      · simp only [if_true, map_bindR]
        congr 1
        funext ⟨pars, words, cont⟩
        cases cont
        · rfl
        · simp only [if_true, map_bindR, Counters.add_ok hw, ok_bind, ih]
    unfold decLoopS decLoop
    simp only
    split
    · simp only [map_bindR]
      congr 1
      funext x
      exact key x
    · exact key (datas, Array.replicate words.size 0, true)

/-- number of words coded -/
theorem encLoopS_count (hw : WordSize E.base.word_size) {n : Nat} : ∀ {fuel : Nat} {ins : Array (Option (List Nat))}
    {outs : Array (List Nat)} {props : Array Properties} {words output : Array Nat} {off : Nat} {clk : Nat → Timing} {c : Counters}
    {r : (Array (List Nat) × Array Properties) × Counters} {S : Nat → List Nat},
    ins.size = E.base.n_data → (∀ i, i < E.base.n_data → gt ins i = some (S i)) → words.size = E.base.n_data →
    (∀ i, i < E.base.n_data → n * E.base.word_size ≤ (S i).length) →
    (∃ i, i < E.base.n_data ∧ (S i).length < (n + 1) * E.base.word_size) →
    E.encLoopS fuel ins outs props words output off clk c = .ok r → r.2 = c.addAll n (fun _ => E.base.word_size) clk := by
  induction n with
  | zero =>
    rintro (_ | fuel) ins outs props words output off clk c r S h1 h2 h3 h4 ⟨i, hi, hl⟩ h
    · cases h
    obtain ⟨st, ws, cont, e, _, _, hc, _⟩ := readRow_spec (w := E.base.word_size) (count := E.base.n_data) (dst := 0)
      (idx := fun i => .ok i) (ix := id) (streams := ins) (words := Array.replicate words.size 0) (R := S) hw (fun i _ => rfl)
      (fun i j _ _ h => h) (fun i hi => by simp only [id]; omega) h2 (by simp; omega)
    have hc' : cont = false := by
      by_contra hne
      have := hc.mp (by simpa using hne) i hi
      omega
    subst hc'
    unfold encLoopS at h
    simp only at h
    rw [e, ok_bind] at h
    have h := Except.ok.inj h
    subst h
    rfl
  | succ n ih =>
    rintro (_ | fuel) ins outs props words output off clk c r S h1 h2 h3 h4 ⟨i, hi, hl⟩ h
    · cases h
    obtain ⟨st, ws, cont, e, z1, z2, hc, hs⟩ := readRow_spec (w := E.base.word_size) (count := E.base.n_data) (dst := 0)
      (idx := fun i => .ok i) (ix := id) (streams := ins) (words := Array.replicate words.size 0) (R := S) hw (fun i _ => rfl)
      (fun i j _ _ h => h) (fun i hi => by simp only [id]; omega) h2 (by simp; omega)
    have hc' : cont = true := hc.mpr (fun i hi => by have := h4 i hi; rw [Nat.add_mul] at this; omega)
    subst hc'
    unfold encLoopS at h
    simp only at h
    rw [e, ok_bind] at h
    simp only [if_true] at h
    obtain ⟨⟨o, p⟩, _, h⟩ := bind_ok h
    simp only at h
    rw [Counters.add_ok hw.pos, ok_bind] at h
    obtain ⟨os, _, h⟩ := bind_ok h
    exact ih (S := fun i => (S i).drop E.base.word_size) (by rw [z1, h1]) (fun i hi => (hs rfl).1 i hi) (by rw [z2]; simpa using h3)
      (fun i hi => by have := h4 i hi; rw [Nat.add_mul] at this; rw [List.length_drop]; omega)
      ⟨i, hi, by have := h4 i hi; simp only [Nat.add_mul, Nat.one_mul] at hl this ⊢; rw [List.length_drop]; omega⟩ h

/-- a word of each chosen stream -/
theorem readRowTwo {w k nd : Nat} {sys : Bool} {ids apar : Array Nat} (hw : WordSize w) (hnd : nd ≤ k) (hnd0 : sys = false → nd = 0)
    (hids : ∀ i j, i < nd → j < nd → gt ids i = gt ids j → i = j) (hidsz : nd ≤ ids.size)
    (hapar : ∀ i j, i < k - nd → j < k - nd → gt apar i = gt apar j → i = j) (haparz : k - nd ≤ apar.size)
    {datas pars : Array (Option (List Nat))} {S : Nat → List Nat} (h : FecV.Picks ids apar nd k datas pars S) {words : Array Nat} (hws : k ≤ words.size) :
    ∃ datas' ws1 c1, (if sys then readRow w nd 0 (fun i => rd ids i) datas words else pure (datas, words, true)) = .ok (datas', ws1, c1) ∧
      (c1 = true ↔ ∀ i, i < nd → w ≤ (S i).length) ∧ (c1 = true → ∃ pars' ws2 c2,
        readRow w (k - nd) nd (fun i => rd apar i) pars ws1 = .ok (pars', ws2, c2) ∧ ws2.size = words.size ∧
        (c2 = true ↔ ∀ i, i < k - nd → w ≤ (S (nd + i)).length) ∧ (c2 = true → FecV.Picks ids apar nd k datas' pars' (fun i => (S i).drop w))) := by
  obtain ⟨d, ws, c, e, z1, z2, hc, hs⟩ : ∃ datas' ws1 c1,
      (if sys then readRow w nd 0 (fun i => rd ids i) datas words else pure (datas, words, true)) = .ok (datas', ws1, c1) ∧
      datas'.size = datas.size ∧ ws1.size = words.size ∧ (c1 = true ↔ ∀ i, i < nd → w ≤ (S i).length) ∧
      (c1 = true → ∀ i, i < nd → gt datas' (gt ids i) = some ((S i).drop w)) := by
    by_cases hs : sys = true
    · rw [if_pos hs]
      obtain ⟨d, ws, c, e, z1, z2, hc, hs⟩ := readRow_spec (w := w) (count := nd) (dst := 0) (idx := fun i => rd ids i) (ix := fun i => gt ids i)
        (streams := datas) (words := words) (R := S) hw (fun i hi => rd_gt (by omega)) hids (fun i hi => (h.data i hi).1)
        (fun i hi => (h.data i hi).2) (by omega)
      exact ⟨d, ws, c, e, z1, z2, hc, fun hh => (hs hh).1⟩
    · rw [if_neg hs]
      have : nd = 0 := hnd0 (by simpa using hs)
      subst this
      exact ⟨datas, words, true, rfl, rfl, rfl, by simp, by simp⟩
  refine ⟨d, ws, c, e, hc, fun hct => ?_⟩
  obtain ⟨p, ws2, c2, e2, y1, y2, hc2, hs2⟩ := readRow_spec (w := w) (count := k - nd) (dst := nd) (idx := fun i => rd apar i)
    (ix := fun i => gt apar i) (streams := pars) (words := ws) (R := fun i => S (nd + i)) hw (fun i hi => rd_gt (by omega)) hapar
    (fun i hi => (h.par i hi).1) (fun i hi => (h.par i hi).2) (by omega)
  refine ⟨p, ws2, c2, e2, by omega, hc2, fun hh => ⟨fun i hi => ⟨?_, hs hct i hi⟩, fun i hi => ⟨?_, (hs2 hh).1 i hi⟩⟩⟩
  · rw [z1]; exact (h.data i hi).1
  · rw [y1]; exact (h.par i hi).1

/-- number of words decoded -/
theorem decLoopS_count (hw : WordSize E.base.word_size) {ids apar : Array Nat} {nd : Nat} (hnd : nd ≤ E.base.n_data)
    (hnd0 : E.base.sys = false → nd = 0)
    (hids : ∀ i j, i < nd → j < nd → gt ids i = gt ids j → i = j) (hidsz : nd ≤ ids.size)
    (hapar : ∀ i j, i < E.base.n_data - nd → j < E.base.n_data - nd → gt apar i = gt apar j → i = j) (haparz : E.base.n_data - nd ≤ apar.size)
    {n : Nat} : ∀ {fuel : Nat} {datas pars outs : Array (Option (List Nat))}
    {props : Array Properties} {C : Γ} {words output : Array Nat} {off : Nat} {clk : Nat → Timing} {c : Counters}
    {r : Array (Option (List Nat)) × Counters} {S : Nat → List Nat},
    FecV.Picks ids apar nd E.base.n_data datas pars S → E.base.n_data ≤ words.size →
    (∀ i, i < E.base.n_data → n * E.base.word_size ≤ (S i).length) →
    (∃ i, i < E.base.n_data ∧ (S i).length < (n + 1) * E.base.word_size) →
    E.decLoopS ids apar nd fuel datas pars outs props C words output off clk c = .ok r → r.2 = c.addAll n (fun _ => E.base.word_size) clk := by
  have step : ∀ {fuel : Nat} {datas pars outs : Array (Option (List Nat))} {props : Array Properties} {C : Γ} {words output : Array Nat} {off : Nat}
      {clk : Nat → Timing} {c : Counters}, E.decLoopS ids apar nd (fuel + 1) datas pars outs props C words output off clk c =
      ((if E.base.sys then readRow E.base.word_size nd 0 (fun i => rd ids i) datas (Array.replicate words.size 0)
        else pure (datas, Array.replicate words.size 0, true)) >>= fun x => if x.2.2 = true then do
          let y ← readRow E.base.word_size (E.base.n_data - nd) nd (fun i => rd apar i) pars x.2.1
          if y.2.2 = true then do
            let z ← E.decode C output props off y.2.1
            let c ← c.add E.base.word_size (clk 0)
            let outs ← writeData E.base.word_size E.base.n_data z.2 outs
            decLoopS E ids apar nd fuel x.1 y.1 outs props z.1 y.2.1 z.2 (off + 1) (later clk) c
          else pure (outs, c)
        else pure (outs, c)) := by
    intros
    conv_lhs => unfold decLoopS
    simp only
    split <;> rfl
  induction n with
  | zero =>
    rintro (_ | fuel) datas pars outs props C words output off clk c r S h1 h3 h4 ⟨i, hi, hl⟩ h
    · cases h
    obtain ⟨d, ws, c1, e, hc, hs⟩ := readRowTwo (sys := E.base.sys) hw hnd hnd0 hids hidsz hapar haparz h1 (words := Array.replicate words.size 0) (by simpa using h3)
    rw [step, e, ok_bind] at h
    cases hc1 : c1 with
    | false =>
      subst hc1
      have h := Except.ok.inj h
      subst h
      rfl
    | true =>
      subst hc1
      rw [Nat.zero_add, Nat.one_mul] at hl
      obtain ⟨p, ws2, c2, e2, _, hc2, _⟩ := hs rfl
      simp only [if_true] at h
      rw [e2, ok_bind] at h
      have hc' : c2 = false := by
        by_contra hne
        have q := hc2.mp (by simpa using hne)
        by_cases hin : i < nd
        · have := hc.mp rfl i hin; omega
        · have := q (i - nd) (by omega)
          rw [Nat.add_sub_cancel' (by omega)] at this
          omega
      subst hc'
      have h := Except.ok.inj h
      subst h
      rfl
  | succ n ih =>
    rintro (_ | fuel) datas pars outs props C words output off clk c r S h1 h3 h4 ⟨i, hi, hl⟩ h
    · cases h
    obtain ⟨d, ws, c1, e, hc, hs⟩ := readRowTwo (sys := E.base.sys) hw hnd hnd0 hids hidsz hapar haparz h1 (words := Array.replicate words.size 0) (by simpa using h3)
    rw [step, e, ok_bind] at h
    have hge : ∀ i, i < E.base.n_data → E.base.word_size ≤ (S i).length := fun i hi => by have := h4 i hi; rw [Nat.add_mul] at this; omega
    have hc1 : c1 = true := hc.mpr (fun i hi => hge i (by omega))
    subst hc1
    obtain ⟨p, ws2, c2, e2, z2, hc2, hs2⟩ := hs rfl
    have hc2 : c2 = true := hc2.mpr (fun i hi => hge _ (by omega))
    subst hc2
    simp only [if_true] at h
    rw [e2, ok_bind] at h
    simp only [if_true] at h
    obtain ⟨z, _, h⟩ := bind_ok h
    rw [Counters.add_ok hw.pos, ok_bind] at h
    obtain ⟨os, _, h⟩ := bind_ok h
    exact ih (S := fun i => (S i).drop E.base.word_size) (hs2 rfl) (by rw [z2]; simpa using h3)
      (fun i hi => by have := h4 i hi; rw [Nat.add_mul] at this; rw [List.length_drop]; omega)
      ⟨i, hi, by have := h4 i hi; simp only [Nat.add_mul, Nat.one_mul] at hl this ⊢; rw [List.length_drop]; omega⟩ h

end Fec

/-! ## packets -/

namespace FecV
variable {E : FecV}

theorem encLoopS_erase (hb : 0 < E.buf_size) {words output : Bufs} {fuel : Nat} {ins outs : Array (Option (List Nat))} {rb off : Nat} {s : EncSt}
    {clk : Nat → Timing} {c : Counters} :
    Except.map Prod.fst (E.encLoopS words output fuel ins outs rb off s clk c) = E.encLoop words output fuel ins outs rb off s := by
  induction fuel generalizing ins outs rb off s clk c with
  | zero => rfl
  | succ fuel ih =>
    unfold encLoopS encLoop
    simp only [map_bindR]
    congr 1
    funext ⟨ins, wc, rb, cont⟩
    by_cases h : rb = 0
    · simp only [if_pos h]; rfl
    · simp only [if_neg h, map_bindR, Counters.add_ok hb, ok_bind]
      congr 1
      funext s
      congr 1
      funext outs
      cases cont
      · rfl
      · simp only [if_true, ih]

theorem decLoopS_erase (hw : 0 < E.base.word_size) {words output : Bufs} {ids apar : Array Nat} {nd : Nat} {props : Array Properties} {fuel : Nat}
    {datas pars outs : Array (Option (List Nat))} {rb off : Nat} {s : DecSt} {clk : Nat → Timing} {c : Counters} :
    Except.map Prod.fst (E.decLoopS words output ids apar nd props fuel datas pars outs rb off s clk c) =
      E.decLoop words output ids apar nd props fuel datas pars outs rb off s := by
  induction fuel generalizing datas pars outs rb off s clk c with
  | zero => rfl
  | succ fuel ih =>
    unfold decLoopS decLoop
    simp only [map_bindR]
    congr 1
    funext ⟨datas, wc, rb, cont⟩
    simp only [map_bindR]
    congr 1
    funext ⟨pars, wc, rb, cont⟩
    by_cases h : rb = 0
    · simp only [if_pos h]; rfl
    · simp only [if_neg h, map_bindR, Counters.add_ok hw, ok_bind]
      congr 1
      funext s
      congr 1
      funext outs
      cases cont
      · rfl
      · simp only [if_true, ih]

theorem encBlockLoopS_erase {words output : Bufs} {datas : Array (Option (Array Nat))} {wanted : Array Bool} {bs fuel : Nat}
    {pars : Array (Option (Array Nat))} {off : Nat} {s : EncSt} {clk : Nat → Timing} {c : Counters} :
    Except.map Prod.fst (E.encBlockLoopS words output datas wanted bs fuel pars off s clk c) =
      E.encBlockLoop words output datas wanted bs fuel pars off s := by
  induction fuel generalizing pars off s clk c with
  | zero => rfl
  | succ fuel ih =>
    unfold encBlockLoopS encBlockLoop
    by_cases h : off < bs
    · simp only [if_pos h, map_bindR]
      congr 1
      funext wc
      congr 1
      funext s
      unfold Counters.add statDiv
      split
      · rfl
      · show (Except.ok _ >>= _) = (Except.ok _ >>= _)
        simp only [ok_bind, map_bindR, ih]
    · simp only [if_neg h]; rfl

theorem decBlockLoopS_erase (hw : 0 < E.base.word_size) {words output : Bufs} {ids apar : Array Nat} {nd : Nat} {pars : Array (Option (Array Nat))}
    {props : Array Properties} {wanted : Array Bool} {bs fuel : Nat} {datas : Array (Option (Array Nat))} {off : Nat} {s : DecSt}
    {clk : Nat → Timing} {c : Counters} :
    Except.map Prod.fst (E.decBlockLoopS words output ids apar nd pars props wanted bs fuel datas off s clk c) =
      E.decBlockLoop words output ids apar nd pars props wanted bs fuel datas off s := by
  induction fuel generalizing datas off s clk c with
  | zero => rfl
  | succ fuel ih =>
    unfold decBlockLoopS decBlockLoop
    by_cases h : off < bs
    · simp only [if_pos h, map_bindR, Counters.add_ok hw, ok_bind, ih]
    · simp only [if_neg h]; rfl

/-- number of packets coded: `P` whole ones, and one more if the last stream without another whole one has bytes left -/
theorem encLoopS_count (hb : 0 < E.buf_size) {words output : Bufs} {j g : Nat} (hj : j < E.base.n_data) (hg : g < E.buf_size) {P : Nat} :
    ∀ {fuel : Nat} {ins outs : Array (Option (List Nat))} {off : Nat} {s : EncSt} {clk : Nat → Timing} {c : Counters}
    {r : (Array (Option (List Nat)) × EncSt) × Counters} {S : Nat → List Nat},
    ins.size = E.base.n_data → (∀ i, i < E.base.n_data → gt ins i = some (S i)) → s.words_char.size = E.base.n_data →
    (S j).length = P * E.buf_size + g → (∀ i, i < E.base.n_data → P * E.buf_size ≤ (S i).length) →
    (∀ i, j < i → i < E.base.n_data → (P + 1) * E.buf_size ≤ (S i).length) →
    E.encLoopS words output fuel ins outs E.buf_size off s clk c = .ok r →
    r.2 = c.addAll (if g = 0 then P else P + 1) (fun _ => E.buf_size) clk := by
  induction P with
  | zero =>
    rintro (_ | fuel) ins outs off s clk c r S h1 h2 h3 h4 h5 h6 h
    · cases h
    obtain ⟨st, wc, e, z1, z2, _⟩ := readPkts_any (buf := E.buf_size) (count := E.base.n_data) (dst := 0) (idx := fun i => .ok i) (ix := id)
      (streams := ins) (wc := s.words_char) (rb := E.buf_size) (cont := true) (R := S) (fun i _ => rfl) (fun i j _ _ h => h)
      (fun i hi => by simp only [id]; omega) h2 (by omega)
    rw [lastRead_short hj (by omega) (fun i h1 h2 => by have := h6 i h1 h2; omega), h4, Nat.zero_mul, Nat.zero_add] at e
    unfold encLoopS at h
    rw [e, ok_bind] at h
    simp only at h
    by_cases hg0 : g = 0
    · rw [if_pos hg0] at h
      have h := Except.ok.inj h
      subst h
      rw [if_pos hg0]
      rfl
    · rw [if_neg hg0] at h
      obtain ⟨s1, _, h⟩ := bind_ok h
      rw [Counters.add_ok hb, ok_bind] at h
      obtain ⟨os, _, h⟩ := bind_ok h
      have h := Except.ok.inj h
      subst h
      rw [if_neg hg0]
      rfl
  | succ P ih =>
    rintro (_ | fuel) ins outs off s clk c r S h1 h2 h3 h4 h5 h6 h
    · cases h
    obtain ⟨st, wc, e, z1, z2, z3, _⟩ := readPkts_any (buf := E.buf_size) (count := E.base.n_data) (dst := 0) (idx := fun i => .ok i) (ix := id)
      (streams := ins) (wc := s.words_char) (rb := E.buf_size) (cont := true) (R := S) (fun i _ => rfl) (fun i j _ _ h => h)
      (fun i hi => by simp only [id]; omega) h2 (by omega)
    rw [lastRead_full (fun i hi => by have := h5 i hi; rw [Nat.add_mul] at this; omega)] at e
    unfold encLoopS at h
    rw [e, ok_bind] at h
    simp only at h
    rw [if_neg hb.ne'] at h
    obtain ⟨s1, es, h⟩ := bind_ok h
    rw [Counters.add_ok hb, ok_bind] at h
    obtain ⟨os, _, h⟩ := bind_ok h
    rw [if_pos trivial] at h
    rw [ih (S := fun i => (S i).drop E.buf_size) (by rw [z1, h1]) (fun i hi => z3 i hi) (by rw [encStep_chars es]; exact z2.trans h3)
      (by rw [List.length_drop, h4, Nat.add_mul]; omega)
      (fun i hi => by have := h5 i hi; rw [Nat.add_mul] at this; rw [List.length_drop]; omega)
      (fun i q1 q2 => by have := h6 i q1 q2; rw [Nat.add_mul] at this; rw [List.length_drop]; omega) h]
    by_cases hg0 : g = 0 <;> simp only [hg0, if_true, if_false] <;> rfl

theorem decLoopS_count (hw : 0 < E.base.word_size) (hb : 0 < E.buf_size) {words output : Bufs} {ids apar : Array Nat} {nd : Nat} {props : Array Properties}
    (hnd : nd ≤ E.base.n_data) (hnd0 : E.base.sys = false → nd = 0)
    (hids : ∀ i j, i < nd → j < nd → gt ids i = gt ids j → i = j) (hidsz : nd ≤ ids.size)
    (hapar : ∀ i j, i < E.base.n_data - nd → j < E.base.n_data - nd → gt apar i = gt apar j → i = j) (haparz : E.base.n_data - nd ≤ apar.size)
    {j g : Nat} (hj : j < E.base.n_data) (hg : g < E.buf_size) {P : Nat} :
    ∀ {fuel : Nat} {datas pars outs : Array (Option (List Nat))} {off : Nat} {s : DecSt} {clk : Nat → Timing} {c : Counters}
    {r : (Array (Option (List Nat)) × Heap) × Counters} {S : Nat → List Nat},
    Picks ids apar nd E.base.n_data datas pars S → s.words_char.size = E.base.n_data →
    (S j).length = P * E.buf_size + g → (∀ i, i < E.base.n_data → P * E.buf_size ≤ (S i).length) →
    (∀ i, j < i → i < E.base.n_data → (P + 1) * E.buf_size ≤ (S i).length) →
    E.decLoopS words output ids apar nd props fuel datas pars outs E.buf_size off s clk c = .ok r →
    r.2 = c.addAll (if g = 0 then P else P + 1) (fun _ => E.base.word_size) clk := by
  induction P with
  | zero =>
    rintro (_ | fuel) datas pars outs off s clk c r S h1 h3 h4 h5 h6 h
    · cases h
    obtain ⟨d1, w1, r1, c1, p1, w2, e1, e2, ew, hq⟩ := readTwo (buf := E.buf_size) (rb := E.buf_size) hnd hnd0 hids hidsz hapar haparz h1 h3
    rw [lastRead_short hj (by omega) (fun i h1 h2 => by have := h6 i h1 h2; omega), h4, Nat.zero_mul, Nat.zero_add] at e2
    unfold decLoopS at h
    rw [e1, ok_bind] at h
    simp only at h
    rw [e2, ok_bind] at h
    simp only at h
    by_cases hg0 : g = 0
    · rw [if_pos hg0] at h
      have h := Except.ok.inj h
      subst h
      rw [if_pos hg0]
      rfl
    · rw [if_neg hg0] at h
      obtain ⟨s1, _, h⟩ := bind_ok h
      rw [Counters.add_ok hw, ok_bind] at h
      obtain ⟨os, _, h⟩ := bind_ok h
      have h := Except.ok.inj h
      subst h
      rw [if_neg hg0]
      rfl
  | succ P ih =>
    rintro (_ | fuel) datas pars outs off s clk c r S h1 h3 h4 h5 h6 h
    · cases h
    obtain ⟨d1, w1, r1, c1, p1, w2, e1, e2, ew, hq⟩ := readTwo (buf := E.buf_size) (rb := E.buf_size) hnd hnd0 hids hidsz hapar haparz h1 h3
    rw [lastRead_full (fun i hi => by have := h5 i hi; rw [Nat.add_mul] at this; omega)] at e2
    unfold decLoopS at h
    rw [e1, ok_bind] at h
    simp only at h
    rw [e2, ok_bind] at h
    simp only at h
    rw [if_neg hb.ne'] at h
    obtain ⟨s1, es, h⟩ := bind_ok h
    rw [Counters.add_ok hw, ok_bind] at h
    obtain ⟨os, _, h⟩ := bind_ok h
    rw [if_pos trivial] at h
    rw [ih (S := fun i => (S i).drop E.buf_size) hq (by rw [decStep_chars es]; show w2.size = _; rw [ew]; simp)
      (by rw [List.length_drop, h4, Nat.add_mul]; omega)
      (fun i hi => by have := h5 i hi; rw [Nat.add_mul] at this; rw [List.length_drop]; omega)
      (fun i q1 q2 => by have := h6 i q1 q2; rw [Nat.add_mul] at this; rw [List.length_drop]; omega) h]
    by_cases hg0 : g = 0 <;> simp only [hg0, if_true, if_false] <;> rfl

theorem packets_step {n p : Nat} (hp : 0 < p) (hn : 0 < n) : packets n p = packets (n - p) p + 1 := by
  unfold packets
  rcases Nat.lt_or_ge n p with h | h
  · rw [Nat.sub_eq_zero_of_le h.le, Nat.zero_add, Nat.div_eq_of_lt (by omega : p - 1 < p)]
    rw [show n + p - 1 = n - 1 + p by omega, Nat.add_div_right _ hp, Nat.div_eq_of_lt (by omega)]
  · rw [show n + p - 1 = (n - p + p - 1) + p by omega, Nat.add_div_right _ hp]

theorem packets_zero {p : Nat} : packets 0 p = 0 := by
  unfold packets
  rcases Nat.eq_zero_or_pos p with h | h
  · subst h; rfl
  · exact Nat.div_eq_of_lt (by omega)

theorem packets_divMod {n p : Nat} (hp : 0 < p) : (if n % p = 0 then n / p else n / p + 1) = packets n p := by
  unfold packets
  have h := Nat.div_add_mod n p
  have hm := Nat.mod_lt n hp
  split
  · rename_i h0
    rw [show n + p - 1 = (p - 1) + p * (n / p) by omega, Nat.add_mul_div_left _ _ hp, Nat.div_eq_of_lt (by omega : p - 1 < p), Nat.zero_add]
  · rename_i h0
    rw [show n + p - 1 = (n % p - 1) + p * (n / p + 1) by rw [Nat.mul_add]; omega, Nat.add_mul_div_left _ _ hp, Nat.div_eq_of_lt (by omega : n % p - 1 < p), Nat.zero_add]

/-- number of packets of blocks coded -/
theorem encBlockLoopS_count {words output : Bufs} {datas : Array (Option (Array Nat))} {wanted : Array Bool} {bs fuel : Nat} :
    ∀ {pars : Array (Option (Array Nat))} {off : Nat} {s : EncSt} {clk : Nat → Timing} {c : Counters}
    {r : (Array (Option (Array Nat)) × EncSt) × Counters},
    E.encBlockLoopS words output datas wanted bs fuel pars off s clk c = .ok r →
    r.2 = c.addAll (packets (bs - off) E.base.pkt_size)
      (fun i => min E.base.pkt_size (bs - off - i * E.base.pkt_size) * E.base.word_size) clk := by
  induction fuel with
  | zero => intro _ _ _ _ _ _ h; cases h
  | succ fuel ih =>
    intro pars off s clk c r h
    unfold encBlockLoopS at h
    by_cases ho : off < bs
    · simp only [if_pos ho] at h
      obtain ⟨wc, _, h⟩ := bind_ok h
      obtain ⟨s1, _, h⟩ := bind_ok h
      obtain ⟨c1, ec, h⟩ := bind_ok h
      obtain ⟨p1, _, h⟩ := bind_ok h
      have hd : 0 < min E.base.pkt_size (bs - off) * E.base.word_size := by
        by_contra hh
        unfold Counters.add at ec
        rw [if_pos (by omega)] at ec
        cases ec
      have hp : 0 < E.base.pkt_size := by
        by_contra hh
        rw [show E.base.pkt_size = 0 by omega] at hd
        simp at hd
      rw [Counters.add_ok hd] at ec
      have ec := Except.ok.inj ec
      subst ec
      rw [ih h, packets_step (n := bs - off) hp (by omega), Nat.sub_sub]
      rw [Counters.addAll_succ]
      congr 1
      · funext i
        rw [show bs - (off + E.base.pkt_size) - i * E.base.pkt_size = bs - off - (i + 1) * E.base.pkt_size by rw [Nat.add_mul]; omega]
      · rw [Nat.zero_mul, Nat.sub_zero]
    · simp only [if_neg ho] at h
      have h := Except.ok.inj h
      subst h
      rw [show bs - off = 0 by omega, packets_zero]
      rfl

/-- number of packets of blocks decoded -/
theorem decBlockLoopS_count (hw : 0 < E.base.word_size) (hp : 0 < E.base.pkt_size) {words output : Bufs} {ids apar : Array Nat} {nd : Nat}
    {pars : Array (Option (Array Nat))} {props : Array Properties} {wanted : Array Bool} {bs fuel : Nat} :
    ∀ {datas : Array (Option (Array Nat))} {off : Nat} {s : DecSt} {clk : Nat → Timing} {c : Counters}
    {r : (Array (Option (Array Nat)) × Heap) × Counters},
    E.decBlockLoopS words output ids apar nd pars props wanted bs fuel datas off s clk c = .ok r →
    r.2 = c.addAll (packets (bs - off) E.base.pkt_size) (fun _ => E.base.word_size) clk := by
  induction fuel with
  | zero => intro _ _ _ _ _ _ h; cases h
  | succ fuel ih =>
    intro datas off s clk c r h
    unfold decBlockLoopS at h
    by_cases ho : off < bs
    · simp only [if_pos ho] at h
      obtain ⟨wc, _, h⟩ := bind_ok h
      obtain ⟨wc, _, h⟩ := bind_ok h
      obtain ⟨s1, _, h⟩ := bind_ok h
      rw [Counters.add_ok hw, ok_bind] at h
      obtain ⟨p1, _, h⟩ := bind_ok h
      rw [ih h, packets_step (n := bs - off) hp (by omega), Nat.sub_sub]
      rfl
    · simp only [if_neg ho] at h
      have h := Except.ok.inj h
      subst h
      rw [show bs - off = 0 by omega, packets_zero]
      rfl

end FecV
end Quad

namespace Quad
open Spec

theorem erase_ok {α β : Type} {x : Res (α × β)} {y : Res α} (h : Except.map Prod.fst x = y) {a : α} (hy : y = .ok a) : ∃ b, x = .ok (a, b) := by
  subst h
  cases x with
  | error e => cases hy
  | ok p =>
    have := Except.ok.inj hy
    exact ⟨p.2, by rw [← this]⟩

namespace Fec
variable {Γ : Type} {E : Fec Γ}

theorem encode_streams_horizontalS_erase (hw : 0 < E.base.word_size) (data outs : Array (List Nat)) (props : Array Properties) (mem : Nat → Nat)
    (clk : Nat → Timing) (st : Stats) :
    Except.map Prod.fst (E.encode_streams_horizontalS data outs props mem clk st) = E.encode_streams_horizontal data outs props mem := by
  unfold encode_streams_horizontalS encode_streams_horizontal
  simp only [map_bindR]
  congr 1; funext _; congr 1; funext _; congr 1; funext _
  rw [← encLoopS_erase hw (clk := clk) (c := st.reset_enc.enc)]
  cases E.encLoopS _ _ _ _ _ _ _ _ _ <;> rfl

theorem decode_streams_horizontalS_erase (hw : 0 < E.base.word_size) (datas pars outs : Array (Option (List Nat))) (props : Array Properties) (mem : Nat → Nat)
    (clk : Nat → Timing) (st : Stats) :
    Except.map Prod.fst (E.decode_streams_horizontalS datas pars props outs mem clk st) = E.decode_streams_horizontal datas pars props outs mem := by
  unfold decode_streams_horizontalS decode_streams_horizontal
  simp only
  split
  · simp only [map_bindR]
    congr 1; funext _; congr 1; funext _; congr 1; funext _; congr 1; funext _; congr 1; funext sel
    rcases sel with _ | _ | ⟨ids, apar, nd⟩
    · rfl
    · rfl
    · simp only [map_bindR]
      congr 1; funext x
      rw [← decLoopS_erase hw (clk := clk) (c := st.reset_dec.dec)]
      cases E.decLoopS _ _ _ _ _ _ _ _ _ _ _ _ _ _ <;> rfl
  · simp only [map_bindR]
    congr 1; funext _; congr 1; funext _; congr 1; funext _; congr 1; funext sel
    rcases sel with _ | _ | ⟨ids, apar, nd⟩
    · rfl
    · rfl
    · simp only [map_bindR]
      congr 1; funext x
      rw [← decLoopS_erase hw (clk := clk) (c := st.reset_dec.dec)]
      cases E.decLoopS _ _ _ _ _ _ _ _ _ _ _ _ _ _ <;> rfl

end Fec

namespace FecV
variable {E : FecV}

theorem encode_streams_verticalS_erase (hb : 0 < E.buf_size) (enc : CtxB) (data outs : Array (List Nat)) (props : Array Properties)
    (junk : Nat → Nat → Nat) (H : Heap) (clk : Nat → Timing) (st : Stats) :
    Except.map Prod.fst (E.encode_streams_verticalS enc data outs props junk H clk st) = E.encode_streams_vertical enc data outs props junk H := by
  unfold encode_streams_verticalS encode_streams_vertical
  simp only [map_bindR]
  congr 1; funext _; congr 1; funext _; congr 1; funext _
  rw [← encLoopS_erase hb (clk := clk) (c := st.reset_enc.enc)]
  cases E.encLoopS _ _ _ _ _ _ _ _ _ _ <;> rfl

theorem encode_blocks_verticalS_erase (enc : CtxB) (datas pars : Array (Option (Array Nat))) (props : Array Properties) (wanted : Array Bool) (bytes : Nat)
    (junk : Nat → Nat → Nat) (H : Heap) (clk : Nat → Timing) (st : Stats) :
    Except.map Prod.fst (E.encode_blocks_verticalS enc datas pars props wanted bytes junk H clk st) =
      E.encode_blocks_vertical enc datas pars props wanted bytes junk H := by
  unfold encode_blocks_verticalS encode_blocks_vertical
  simp only [map_bindR]
  congr 1; funext _; congr 1; funext _; congr 1; funext _
  rw [← encBlockLoopS_erase (clk := clk) (c := st.reset_enc.enc)]
  cases E.encBlockLoopS _ _ _ _ _ _ _ _ _ _ _ <;> rfl

theorem decode_streams_verticalS_erase (hw : 0 < E.base.word_size) (datas pars outs : Array (Option (List Nat))) (props : Array Properties) (mem : Nat → Nat)
    (junk : Nat → Nat → Nat) (H : Heap) (clk : Nat → Timing) (st : Stats) :
    Except.map Prod.fst (E.decode_streams_verticalS datas pars props outs mem junk H clk st) =
      E.decode_streams_vertical datas pars props outs mem junk H := by
  unfold decode_streams_verticalS decode_streams_vertical
  simp only
  split
  · simp only [map_bindR]
    congr 1; funext _; congr 1; funext _; congr 1; funext _; congr 1; funext _; congr 1; funext sel
    rcases sel with _ | _ | ⟨ids, apar, nd⟩
    · rfl
    · rfl
    · simp only [map_bindR]
      congr 1; funext x
      rw [← decLoopS_erase hw (clk := clk) (c := st.reset_dec.dec)]
      cases E.decLoopS _ _ _ _ _ _ _ _ _ _ _ _ _ _ _ <;> rfl
  · simp only [map_bindR]
    congr 1; funext _; congr 1; funext _; congr 1; funext _; congr 1; funext sel
    rcases sel with _ | _ | ⟨ids, apar, nd⟩
    · rfl
    · rfl
    · simp only [map_bindR]
      congr 1; funext x
      rw [← decLoopS_erase hw (clk := clk) (c := st.reset_dec.dec)]
      cases E.decLoopS _ _ _ _ _ _ _ _ _ _ _ _ _ _ _ <;> rfl

theorem decode_blocks_verticalS_erase (hw : 0 < E.base.word_size) (datas pars : Array (Option (Array Nat))) (props : Array Properties)
    (missing wanted : Array Bool) (bytes : Nat) (mem : Nat → Nat)
    (junk : Nat → Nat → Nat) (H : Heap) (clk : Nat → Timing) (st : Stats) :
    Except.map Prod.fst (E.decode_blocks_verticalS datas pars props missing wanted bytes mem junk H clk st) =
      E.decode_blocks_vertical datas pars props missing wanted bytes mem junk H := by
  unfold decode_blocks_verticalS decode_blocks_vertical
  simp only
  split
  · simp only [map_bindR]
    congr 1; funext _; congr 1; funext _; congr 1; funext _; congr 1; funext sel
    rcases sel with _ | _ | ⟨ids, apar, nd⟩
    · rfl
    · rfl
    · simp only [map_bindR]
      congr 1; funext x
      rw [← decBlockLoopS_erase hw (clk := clk) (c := st.reset_dec.dec)]
      cases E.decBlockLoopS _ _ _ _ _ _ _ _ _ _ _ _ _ _ _ <;> rfl
  · simp only [map_bindR]
    congr 1; funext _; congr 1; funext _; congr 1; funext sel
    rcases sel with _ | _ | ⟨ids, apar, nd⟩
    · rfl
    · rfl
    · simp only [map_bindR]
      congr 1; funext x
      rw [← decBlockLoopS_erase hw (clk := clk) (c := st.reset_dec.dec)]
      cases E.decBlockLoopS _ _ _ _ _ _ _ _ _ _ _ _ _ _ _ <;> rfl

end FecV
end Quad
