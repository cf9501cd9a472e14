import Mathlib.Algebra.Order.BigOperators.Group.List
import Mathlib.Tactic.FieldSimp
import Mathlib.Tactic.Ring
import Mathlib.Tactic.Linarith
import Mathlib.Tactic.Positivity
import Verif.Model.BenchStats
import Verif.Spec.BenchStats
import Verif.Props.BenchRun

/-!
# C76: the figures of the benchmark

C76 asks that the benchmark shows for each direction the mean and standard deviation of the times of the samples it ran, and the work load divided by the mean.
-/

namespace Quad.Props
open Quad Quad.Spec Quad.Driver Quad.Bench

/-! ## The figures -/

/-- what is kept of some times -/
private def kept (w : Nat) (l : List Nat) : StatsT := ⟨l.length % 2 ^ 64, l.sum % 2 ^ 64, (l.map (fun x => x * x)).sum % 2 ^ 64, w⟩

private theorem kept_add (w : Nat) (l : List Nat) (x : Nat) : (kept w l).add x = kept w (l ++ [x]) := by
  unfold kept StatsT.add wrap
  simp

private theorem fold_kept (w : Nat) : ∀ (l l' : List Nat), l.foldl (fun s x => s.add x) (kept w l') = kept w (l' ++ l)
  | [], l' => by simp
  | x :: l, l' => by
    rw [List.foldl_cons, kept_add, fold_kept w l, List.append_assoc]; rfl

private theorem begin_kept (s : StatsT) : s.begin = kept s.work_load [] := by
  unfold StatsT.begin kept; simp

private theorem sum_cast (l : List Nat) : (l.map (fun (x : Nat) => (x : Rat))).sum = (l.sum : Rat) := by
  induction l with
  | nil => simp
  | cons x l ih => rw [List.map_cons, List.sum_cons, ih, List.sum_cons, Nat.cast_add]

private theorem sum_le_squares (l : List Nat) : l.sum ≤ (l.map (fun x => x * x)).sum := by
  induction l with
  | nil => simp
  | cons x l ih =>
    simp only [List.sum_cons, List.map_cons]
    have := Nat.le_mul_self x
    omega

private theorem dev (l : List Nat) (a : Rat) : (l.map (fun (x : Nat) => ((x : Rat) - a) ^ 2)).sum =
    (((l.map (fun x => x * x)).sum : Nat) : Rat) - 2 * a * (l.sum : Rat) + l.length * a ^ 2 := by
  induction l with
  | nil => simp
  | cons x l ih =>
    simp only [List.map_cons, List.sum_cons, ih, List.length_cons]
    push_cast
    ring

private theorem var_eq {l : List Nat} (h : l ≠ []) :
    variance l = (((l.map (fun x => x * x)).sum : Nat) : Rat) / l.length - mean l * mean l := by
  have hn : (l.length : Rat) ≠ 0 := by
    rw [Nat.cast_ne_zero]
    exact fun e => h (List.length_eq_zero_iff.1 e)
  have hm : (l.sum : Rat) = mean l * l.length := by
    unfold mean
    rw [sum_cast, div_mul_cancel₀ _ hn]
  unfold variance
  rw [dev, hm]
  field_simp
  ring

private theorem var_nonneg (l : List Nat) : 0 ≤ variance l := by
  unfold variance
  refine div_nonneg (List.sum_nonneg ?_) (Nat.cast_nonneg _)
  intro y hy
  obtain ⟨x, _, rfl⟩ := List.mem_map.1 hy
  exact sq_nonneg _

private theorem figures {w : Nat} {l : List Nat} (h : l ≠ []) (hn : l.length < 2 ^ 64) (hs : (l.map (fun x => x * x)).sum < 2 ^ 64) :
    (kept w l).avg = some (mean l) ∧ (kept w l).std_dev_2 = some (variance l) ∧
      (kept w l).get_thrpt = if mean l = 0 then none else some (w / mean l) := by
  have hn0 : l.length ≠ 0 := fun e => h (List.length_eq_zero_iff.1 e)
  have hs1 := lt_of_le_of_lt (sum_le_squares l) hs
  have e : kept w l = ⟨l.length, l.sum, (l.map (fun x => x * x)).sum, w⟩ := by
    unfold kept
    rw [Nat.mod_eq_of_lt hn, Nat.mod_eq_of_lt hs, Nat.mod_eq_of_lt hs1]
  have ha : (kept w l).avg = some (mean l) := by
    rw [e]
    unfold StatsT.avg mean
    rw [if_neg hn0, sum_cast]
  refine ⟨ha, ?_, ?_⟩
  · unfold StatsT.std_dev_2
    rw [ha]
    simp only
    rw [e]
    simp only
    rw [← var_eq h, if_neg (not_lt.2 (var_nonneg l))]
  · unfold StatsT.get_thrpt
    rw [ha, e]

/-- C76, the figures: after `begin` and the times of at least one sample, whatever was added before, the average is the mean of these times, the square of the
deviation their variance, and the throughput the work load divided by the mean, if this is not 0.  Missing: sums of squares that do not fit 64 bits
(`C76_long_samples`), and no samples (`C76_no_samples`). -/
theorem C76_figures_partial (s : StatsT) {l : List Nat} (h : l ≠ []) (hn : l.length < 2 ^ 64) (hs : (l.map (fun x => x * x)).sum < 2 ^ 64) :
    (l.foldl (fun s x => s.add x) s.begin).avg = some (mean l) ∧
    (l.foldl (fun s x => s.add x) s.begin).std_dev_2 = some (variance l) ∧
    (l.foldl (fun s x => s.add x) s.begin).get_thrpt = if mean l = 0 then none else some (s.work_load / mean l) := by
  rw [begin_kept, fold_kept, List.nil_append]
  exact figures h hn hs

/-- C76 fails without samples: no figure is a number. -/
theorem C76_no_samples (s : StatsT) : s.begin.avg = none ∧ s.begin.std_dev_2 = none ∧ s.begin.get_thrpt = none := ⟨rfl, rfl, rfl⟩

/-- C76 fails for long samples: when one sample took 2^32 microseconds or more, that is 72 minutes, the deviation is not a number.  (The average is right.) -/
theorem C76_long_samples (s : StatsT) {v : Nat} (h : 2 ^ 32 ≤ v) (h' : v < 2 ^ 64) :
    (s.begin.add v).avg = some v ∧ (s.begin.add v).std_dev_2 = none := by
  have e : s.begin.add v = ⟨1, v, v * v % 2 ^ 64, s.work_load⟩ := by
    unfold StatsT.begin StatsT.add wrap
    simp only [Nat.zero_add, Nat.mod_mod, Nat.mod_eq_of_lt h']
  have ha : (s.begin.add v).avg = some (v : Rat) := by
    rw [e]; simp [StatsT.avg]
  refine ⟨ha, ?_⟩
  unfold StatsT.std_dev_2
  rw [ha, e]
  simp only
  refine if_pos ?_
  have h1 : 2 ^ 64 ≤ v * v := by
    calc 2 ^ 64 = 2 ^ 32 * 2 ^ 32 := by norm_num
      _ ≤ v * v := Nat.mul_le_mul h h
  have h2 : v * v % 2 ^ 64 < v * v := lt_of_lt_of_le (Nat.mod_lt _ (by norm_num)) h1
  have h3 : ((v * v % 2 ^ 64 : Nat) : Rat) < (v : Rat) * v := by exact_mod_cast h2
  rw [Nat.cast_one, div_one]
  linarith

/-! ## The scenarios -/

private theorem times_succ (t : Nat → Nat) (n : Nat) : times t (n + 1) = times t n ++ [t n] := by
  unfold times
  rw [List.range_succ, List.map_append]; rfl

private theorem encLoopT_eq {F : Coder} (tE : Nat → Nat) (w : Nat) : ∀ (n i : Nat) (st : State F.σ),
    encLoopT F tE n i st (kept w (times tE i)) = (encLoop F n st >>= fun r => pure (r, kept w (times tE (i + n)))) := by
  intro n
  induction n with
  | zero => intro i st; rfl
  | succ n ih =>
    intro i st
    unfold encLoopT encLoop
    rw [bind_assoc]
    congr 1
    funext st1
    rw [kept_add, ← times_succ, ih, show i + 1 + n = i + (n + 1) by omega]

/-- C76, `enc_only`: it does what it does without figures, and if it succeeds shows the times of the encodings of all samples. -/
theorem C76_enc_only (F : Coder) (tE : Nat → Nat) (size n : Nat) (st : State F.σ) (e : StatsT) :
    Except.map Prod.fst (enc_onlyT F tE size n st e) = enc_only F size n st ∧
    ∀ st' l, enc_onlyT F tE size n st e = .ok ((true, st'), l) → l = [(times tE n).foldl (fun s x => s.add x) e.begin] := by
  have key : enc_onlyT F tE size n st e = (enc_only F size n st >>= fun r => pure (r, if r.1 then [kept e.work_load (times tE n)] else [])) := by
    unfold enc_onlyT enc_only
    simp only
    rw [bind_assoc]
    congr 1
    funext st1
    have := encLoopT_eq tE e.work_load n 0 st1
    rw [show kept e.work_load (times tE 0) = e.begin from (begin_kept e).symm, Nat.zero_add] at this
    rw [this, bind_assoc]
    rfl
  rw [key]
  constructor
  · cases enc_only F size n st <;> rfl
  · intro st' l h
    obtain ⟨r, _, h⟩ := bind_ok h
    have h := Except.ok.inj h
    injection h with h1 h2
    rw [← h2, h1, begin_kept, fold_kept, List.nil_append]
    rfl

private theorem map_bind' {α β γ : Type} (x : Res α) (f : α → Res (β × γ)) (g : α → Res β) (h : ∀ a, Except.map Prod.fst (f a) = g a) :
    Except.map Prod.fst (x >>= f) = (x >>= g) := by
  cases x with
  | error e => rfl
  | ok a => exact h a

private theorem decLoopT_erase {F : Coder} (tE tD : Nat → Nat) (both sys : Bool) (size : Nat) : ∀ (sh : List (List (Array Nat))) (i : Nat) (st : State F.σ) (e d : StatsT),
    Except.map Prod.fst (decLoopT F tE tD both sys size sh i st e d) = decLoop F both sys size sh st
  | [], i, st, e, d => rfl
  | l :: sh, i, st, e, d => by
    have key : ∀ st1 e1, Except.map Prod.fst ((Bench.decode F sys size l st1 >>= fun (v, st) =>
        if v then decLoopT F tE tD both sys size sh (i + 1) st e1 (d.add (tD i)) else pure ((false, st), e1, d)) :
          Res ((Bool × State F.σ) × StatsT × StatsT)) =
        (Bench.decode F sys size l st1 >>= fun (v, st) => if v then decLoop F both sys size sh st else pure (false, st)) := by
      intro st1 e1
      refine map_bind' _ _ _ (fun a => ?_)
      obtain ⟨v, st2⟩ := a
      cases v
      · rfl
      · exact decLoopT_erase tE tD both sys size sh (i + 1) st2 _ _
    unfold decLoopT decLoop
    cases both
    · exact key st e
    · exact map_bind' _ _ _ (fun st1 => key st1 (e.add (tE i)))

private theorem decLoopT_true {F : Coder} {tE tD : Nat → Nat} {both sys : Bool} {size w w' : Nat} : ∀ {sh : List (List (Array Nat))} {i : Nat} {st st' : State F.σ}
    {L : List Nat} {e' d' : StatsT}, (both = true → L = times tE i) →
    decLoopT F tE tD both sys size sh i st (kept w L) (kept w' (times tD i)) = .ok ((true, st'), e', d') →
    e' = kept w (if both then times tE (i + sh.length) else L) ∧ d' = kept w' (times tD (i + sh.length))
  | [], i, st, st', L, e', d', hL, h => by
    have h := Except.ok.inj h
    injection h with _ h
    injection h with h1 h2
    rw [← h1, ← h2]
    cases both
    · exact ⟨rfl, rfl⟩
    · rw [hL rfl]; exact ⟨rfl, rfl⟩
  | l :: sh, i, st, st', L, e', d', hL, h => by
    obtain ⟨st1, h⟩ : ∃ st1, ((Bench.decode F sys size l st1 >>= fun (v, st) =>
        if v then decLoopT F tE tD both sys size sh (i + 1) st (if both then (kept w L).add (tE i) else kept w L) ((kept w' (times tD i)).add (tD i))
        else pure ((false, st), (if both then (kept w L).add (tE i) else kept w L), kept w' (times tD i))) : Res ((Bool × State F.σ) × StatsT × StatsT)) =
          .ok ((true, st'), e', d') := by
      unfold decLoopT at h
      simp only at h
      obtain ⟨st1, _, h⟩ := bind_ok h
      exact ⟨st1, h⟩
    obtain ⟨⟨v, st2⟩, _, h⟩ := bind_ok h
    simp only at h
    cases v
    · simp only [Bool.false_eq_true, if_false] at h
      cases h
    simp only [if_true] at h
    rw [kept_add w' (times tD i), ← times_succ] at h
    have hlen : i + (l :: sh).length = i + 1 + sh.length := by rw [List.length_cons]; omega
    rw [hlen]
    cases both
    · simp only [Bool.false_eq_true, if_false] at h ⊢
      have := decLoopT_true (fun q => by cases q) h
      simpa using this
    · simp only [if_true] at h ⊢
      rw [kept_add, hL rfl, ← times_succ] at h
      have := decLoopT_true (fun _ => rfl) h
      simpa using this

/-- C76, `dec_only`: it does what it does without figures, and if it succeeds shows the time of its one encoding and the times of all decodings. -/
theorem C76_dec_only (F : Coder) (tE tD : Nat → Nat) (sys : Bool) (size : Nat) (sh : List (List (Array Nat))) (st : State F.σ) (e d : StatsT) :
    Except.map Prod.fst (dec_onlyT F tE tD sys size sh st e d) = dec_only F sys size sh st ∧
    ∀ st' l, dec_onlyT F tE tD sys size sh st e d = .ok ((true, st'), l) →
      l = [e.begin.add (tE 0), (times tD sh.length).foldl (fun s x => s.add x) d.begin] := by
  constructor
  · unfold dec_onlyT dec_only
    simp only
    refine map_bind' _ _ _ (fun st1 => map_bind' _ _ _ (fun st2 => ?_))
    rw [← decLoopT_erase tE tD false sys size sh 0 st2 (e.begin.add (tE 0)) d.begin]
    cases decLoopT F tE tD false sys size sh 0 st2 (e.begin.add (tE 0)) d.begin <;> rfl
  · intro st' l h
    unfold dec_onlyT at h
    simp only at h
    obtain ⟨st1, _, h⟩ := bind_ok h
    obtain ⟨st2, _, h⟩ := bind_ok h
    obtain ⟨⟨r, e1, d1⟩, h1, h⟩ := bind_ok h
    have h := Except.ok.inj h
    injection h with q1 q2
    simp only at q1 q2
    subst q1
    rw [begin_kept e, begin_kept d, kept_add] at h1
    obtain ⟨a, b⟩ := decLoopT_true (w := e.work_load) (w' := d.work_load) (L := [tE 0]) (i := 0) (fun q => by cases q) h1
    rw [← q2, a, b, begin_kept e, begin_kept d, kept_add, fold_kept, List.nil_append, Nat.zero_add]
    rfl

/-- C76, after a failure: a scenario that reports failure shows no figures.  (Scenarios report failure, for instance, when bytes after the last word
are not what memory held: see `C71_multiplicative_ends_partial`.) -/
theorem C76_failure_shows_nothing (F : Coder) (tE tD : Nat → Nat) (sys : Bool) (size n : Nat) (sh : List (List (Array Nat))) (st st' : State F.σ) (e d : StatsT)
    (l : List StatsT) : (enc_onlyT F tE size n st e = .ok ((false, st'), l) → l = []) ∧
    (dec_onlyT F tE tD sys size sh st e d = .ok ((false, st'), l) → l = []) ∧ (enc_decT F tE tD sys size sh st e d = .ok ((false, st'), l) → l = []) := by
  refine ⟨fun h => ?_, fun h => ?_, fun h => ?_⟩
  · unfold enc_onlyT at h
    obtain ⟨st1, _, h⟩ := bind_ok h
    obtain ⟨⟨⟨v, st2⟩, e'⟩, _, h⟩ := bind_ok h
    cases v <;> cases h
    rfl
  · unfold dec_onlyT at h
    obtain ⟨st1, _, h⟩ := bind_ok h
    obtain ⟨st2, _, h⟩ := bind_ok h
    obtain ⟨⟨⟨v, st3⟩, e', d'⟩, _, h⟩ := bind_ok h
    cases v <;> cases h
    rfl
  · unfold enc_decT at h
    obtain ⟨st1, _, h⟩ := bind_ok h
    obtain ⟨⟨⟨v, st3⟩, e', d'⟩, _, h⟩ := bind_ok h
    cases v <;> cases h
    rfl

/-- C76, `enc_dec`: it does what it does without figures, and if it succeeds shows the times of the encodings and decodings of all samples. -/
theorem C76_enc_dec (F : Coder) (tE tD : Nat → Nat) (sys : Bool) (size : Nat) (sh : List (List (Array Nat))) (st : State F.σ) (e d : StatsT) :
    Except.map Prod.fst (enc_decT F tE tD sys size sh st e d) = enc_dec F sys size sh st ∧
    ∀ st' l, enc_decT F tE tD sys size sh st e d = .ok ((true, st'), l) →
      l = [(times tE sh.length).foldl (fun s x => s.add x) e.begin, (times tD sh.length).foldl (fun s x => s.add x) d.begin] := by
  constructor
  · unfold enc_decT enc_dec
    simp only
    refine map_bind' _ _ _ (fun st1 => ?_)
    rw [← decLoopT_erase tE tD true sys size sh 0 st1 e.begin d.begin]
    cases decLoopT F tE tD true sys size sh 0 st1 e.begin d.begin <;> rfl
  · intro st' l h
    unfold enc_decT at h
    simp only at h
    obtain ⟨st1, _, h⟩ := bind_ok h
    obtain ⟨⟨r, e1, d1⟩, h1, h⟩ := bind_ok h
    have h := Except.ok.inj h
    injection h with q1 q2
    simp only at q1 q2
    subst q1
    rw [begin_kept e, begin_kept d] at h1
    obtain ⟨a, b⟩ := decLoopT_true (w := e.work_load) (w' := d.work_load) (L := []) (i := 0) (fun _ => rfl) h1
    rw [← q2, a, b, begin_kept e, begin_kept d, fold_kept, fold_kept, List.nil_append, List.nil_append, Nat.zero_add]
    rfl

/-! ### concrete cases -/

/-- three samples of 2, 4 and 6 microseconds: mean 4, variance 8/3, throughput of 1024 bytes 256 -/
example : mean [2, 4, 6] = 4 ∧ variance [2, 4, 6] = 8 / 3 ∧
    ([2, 4, 6].foldl (fun s x => s.add x) (StatsT.mk' 1024).begin).get_thrpt = some 256 := by decide +kernel

/-- the hypotheses of `C76_figures_partial` hold for them -/
example : ([2, 4, 6].foldl (fun s x => s.add x) (StatsT.mk' 1024).begin).std_dev_2 = some (variance [2, 4, 6]) :=
  (C76_figures_partial _ (by decide) (by decide) (by decide)).2.1

end Quad.Props
