import Verif.Lemmas.BenchMain
import Verif.Props.BenchRun
import Verif.Props.FecWords
import Verif.Props.DriverMain
import Verif.Lemmas.Getopt

/-!
# C72, C73: the benchmark program

C72: with valid options the program runs what they ask for, and with parameters a code supports every thread's scenario ends well.
C73: threads of the program share no data that one of them writes.
-/

namespace Quad.Props
open Quad Quad.Spec Quad.Bench
open Quad.Driver (Coder Object toUnsigned toUnsigned_nat stoi)

/-! ## Options -/

/-- C72: the options are accepted exactly when each is one of the program's, with an argument that means something, and then
each parameter has the value in the last option for it, or its default. -/
theorem C72_options (args : List (Char × List Char)) (p : Params) :
    options args {} = .ok p ↔ (∀ a ∈ args, ValidOption a) ∧ p = askedFor args := by
  constructor
  · intro h
    exact ⟨options_valid.1 ⟨p, h⟩, options_asked h⟩
  · rintro ⟨h, rfl⟩
    obtain ⟨p, hp⟩ := (options_valid (p0 := {})).2 h
    rw [hp, options_asked hp]

/-! ## Runs -/

private theorem words_ok {Γ : Type} {E : Fec Γ} {w k n m : Nat} {sys : Bool} (env : Driver.Env) {T : Nat} (h : PassesWords E w k n m sys T) :
    (env.words E).1.n_data = k ∧ Passes (env.words E).1 sys m (T * w) (env.words E).2 := ⟨h.1, h.2.2 _ _ _⟩

/-- every code is built and passes -/
private theorem build_ok {e : Ec} {env : Driver.Env} {p : Params} {size k m : Nat} (hs : size ∈ [2, 4, 8, 16])
    (h : Workable e size p.word_size k m) (he : EnvOk env) (hu : UseOk e size p env.reg) {T : Nat} (h0 : 0 < T) (hT : T ≤ 2 ^ 64) :
    ∃ x, Bench.build env (8 * size) e p.operation_on_packet p.word_size k m p.pkt_size = .ok x ∧ x.1.n_data = k ∧
      Passes x.1 e.systematic m (T * p.word_size) x.2 := by
  obtain ⟨k0, m0, hlen, hint, hx⟩ := h
  obtain ⟨hu1, hu2⟩ := hu
  simp only [List.mem_cons, List.not_mem_nil, or_false] at hs
  set w := p.word_size with hw
  have hbin : w ∈ [1, 2, 4, 8, 16] → w ≤ size → 2 < size → BinSupported (8 * size) (8 * w) := by
    intro h1 h2 h3
    refine ⟨?_, ⟨size, rfl⟩, by omega, by omega⟩
    simp only [List.mem_cons, List.not_mem_nil, or_false] at h1
    rcases h1 with h | h | h | h | h <;> rw [h] <;> simp
  have hfnt : ∀ sys, ((w = 1 ∨ w = 2) ∧ w < size ∧ size ≤ 8 ∧ 2 * k ≤ 2 ^ (8 * w)) →
      (⟨8 * size, double (8 * size), w, k, m, sys⟩ : FntCode).Ok := by
    rintro sys ⟨h1, h2, h3, h4⟩
    refine ⟨?_, h1, k0, m0, by simp only; omega, h4⟩
    have hs' : size = 2 ∨ size = 4 ∨ size = 8 := by omega
    rcases hs' with rfl | rfl | rfl
    · exact .inr (.inr ⟨rfl, rfl, by simp only; omega⟩)
    · exact .inl ⟨rfl, rfl⟩
    · exact .inr (.inl ⟨rfl, rfl⟩)
  have hpack : ∀ sys, ((w = 1 ∨ w = 2) ∧ w < size ∧ size ≤ 8 ∧ 2 * k ≤ 2 ^ (8 * w)) → p.operation_on_packet = true →
      (env.reg ≠ none → size = 8 ∨ size = 2 * w) → ∃ x : Object,
      (RsFntObj.mk' (.of env.reg (8 * size)) (8 * size) (double (8 * size)) sys w k m p.pkt_size env.mem env.junk env.heap).map
        (fun x => (⟨Coder.vertical (x.2.fecV (8 * size)) env.memDec env.junkEnc env.junkDec, (x.2.enc_context, x.1, (0 : Nat))⟩ : Object)) = .ok x ∧
      x.1.n_data = k ∧ Passes x.1 sys m (T * w) x.2 := by
    intro sys h1 h2 h3
    have hc := hfnt sys h1
    have hb : (⟨8 * size, double (8 * size), w, k, m, sys⟩ : FntCode).Builds env.reg := by
      intro R hR
      refine ⟨?_, ?_⟩
      · rcases he with h | h | h <;> rw [h] at hR <;> cases hR <;> simp
      · rcases h3 (by rw [hR]; simp) with h | h <;> simp only <;> omega
    obtain ⟨H, R, eq⟩ := C23_new hc hb p.pkt_size env.mem env.junk env.heap
    obtain ⟨q1, _, q3⟩ := C71_fnt hc (hu1 h2).1 (.new ⟨env.reg, hb, _, _, _, eq⟩) env.memDec env.junkEnc env.junkDec 0 h0 hT
    refine ⟨_, by rw [show RsFntObj.mk' (.of env.reg (8 * size)) (8 * size) (double (8 * size)) sys w k m p.pkt_size env.mem env.junk env.heap = _ from eq]; rfl,
      q1, q3⟩
  cases e with
  | gf2nV =>
    simp only at hx
    obtain ⟨E, eq, h⟩ := C71_vandermonde (b := 8 * size) (w := w) (k := k) (m := m) ⟨hx.1, hbin hx.1 hx.2.1 hx.2.2, k0, by omega⟩ env.mem env.junk env.junk3 h0 hT
    exact ⟨env.words E, by show Driver.newGf2n _ _ _ _ _ _ = _; unfold Driver.newGf2n; rw [eq]; rfl, words_ok env h⟩
  | gf2nC =>
    simp only at hx
    obtain ⟨E, eq, h⟩ := C71_cauchy_partial (b := 8 * size) (w := w) (k := k) (m := m) ⟨hx.1, hbin hx.1 hx.2.1 hx.2.2.1, k0, by omega⟩ hx.2.2.2 env.mem env.junk env.junk3 h0 hT
    exact ⟨env.words E, by show Driver.newGf2n _ _ _ _ _ _ = _; unfold Driver.newGf2n; rw [eq]; rfl, words_ok env h⟩
  | gf2nFft =>
    simp only at hx
    obtain ⟨B, eq, h⟩ := C71_multiplicative (b := 8 * size) (w := w) (k := k) (m := m) ⟨hx.1, hbin hx.1 hx.2.1 hx.2.2.1, k0, m0, hx.2.2.2.1, hx.2.2.2.2⟩ env.mem env.junk env.junk3 h0 hT
    exact ⟨env.words (RsGf2nFft.fec B), by show Driver.newGf2nFft _ _ _ _ _ = _; unfold Driver.newGf2nFft; rw [eq]; rfl, words_ok env h⟩
  | gf2nFftAdd =>
    simp only at hx
    obtain ⟨c, eq, h⟩ := C71_additive_partial (b := 8 * size) (w := w) (k := k) (m := m) ⟨hx.1, hbin hx.1 hx.2.1 hx.2.2.1, k0, m0, by omega, hx.2.2.2.1⟩ hx.2.2.2.2 env.mem env.junk env.junk3 h0 hT
    exact ⟨env.words (RsGf2nFftAdd.fec c), by show Driver.newGf2nFftAdd _ _ _ _ _ = _; unfold Driver.newGf2nFftAdd; rw [eq]; rfl, words_ok env h⟩
  | gfpFft =>
    simp only at hx
    have hG : GfpParams (8 * size) (double (8 * size)) w k m := by
      refine ⟨?_, k0, m0⟩
      rcases hx with ⟨h1, h2 | h2, h3⟩ | ⟨h1, h2, h3, h4⟩
      · subst h2; exact .inl ⟨h1, .inl ⟨rfl, rfl⟩, by omega, h3⟩
      · subst h2; exact .inl ⟨h1, .inr ⟨rfl, rfl⟩, by omega, h3⟩
      · subst h2; exact .inr ⟨h1, rfl, rfl, h3, h4⟩
    obtain ⟨c, eq, h⟩ := C71_gfp_partial hG env.mem h0 hT
    refine ⟨env.words (RsGfpFft.fec (8 * size) c), ?_, words_ok env h⟩
    show (RsGfpFft.mkBase _ _ _ _ _ _).map _ = _
    rw [eq]; rfl
  | nf4 =>
    simp only at hx
    obtain ⟨h1, h2, h3, h4⟩ := hx
    have hN : Nf4Params (8 * size) (RsNf4Obj.nf4Simd (8 * size) env.reg env.hi) w k m := by
      refine ⟨h1, ⟨by omega, by omega, by omega, ?_⟩, k0, m0, h3, h4⟩
      intro R hi hR
      unfold RsNf4Obj.nf4Simd at hR
      split at hR
      · rename_i h128
        refine ⟨h128, ?_⟩
        rcases he with h | h | h <;> rw [h] at hR <;> cases hR <;> simp
      · cases hR
    cases ho : p.operation_on_packet with
    | true =>
      obtain ⟨R, eq, q1, q2, q3⟩ := C71_nf4 (pkt := p.pkt_size) he hN (hu1 ho).1 env.mem h0 hT
      refine ⟨⟨Coder.vertical (R.fecV (8 * size)) env.memDec env.junkEnc env.junkDec, (default, env.heap, (0 : Nat))⟩, ?_, q1, q3 _ _ _ _⟩
      show (RsNf4Obj.mk' _ _ _ _ _ _ _ _).map _ = _
      rw [eq]; rfl
    | false =>
      obtain ⟨c, eq, h⟩ := C71_nf4_words (pkt := p.pkt_size) hN env.mem h0 hT
      refine ⟨env.words (RsNf4.fec c), ?_, words_ok env h⟩
      show (RsNf4.mkCode _ _ _ _ _ _ _).map _ = _
      rw [eq]; rfl
  | fnt =>
    cases ho : p.operation_on_packet with
    | true => exact hpack false hx ho ((hu1 ho).2 (.inl rfl))
    | false =>
      obtain ⟨B, eq, h⟩ := C71_fnt_words (hfnt false hx) rfl p.pkt_size env.mem h0 hT
      refine ⟨env.words (RsFnt.fec B), ?_, words_ok env h⟩
      show (RsFnt.mkBase _ _ _ _ _ _ _ _).map _ = _
      rw [show RsFnt.mkBase (8 * size) (double (8 * size)) false w k m p.pkt_size env.mem = _ from eq]; rfl
  | fntSys =>
    have ho := hu2 rfl
    rw [ho]
    exact hpack true hx ho ((hu1 ho).2 (.inr rfl))

/-- C72: with parameters the benchmark accepts and the code supports, the scenario of the code ends well, in every build, whatever memory holds,
at any time, and whichever fragments the shuffles lose.  Missing: what `Workable` and `UseOk` leave out, for which see below and C71. -/
theorem C72_runs_partial {e : Ec} {env : Bench.Env} {p : Params} {size k m : Nat} (hk : p.k = k) (hm : p.m = m) (ht : UsesType e p size)
    (hc : ChunksOk p) (h : Workable e size p.word_size k m) (he : EnvOk env.toEnv) (hu : UseOk e size p env.reg)
    (hs : ∀ i, i < p.samples_nb → Shuffles e.systematic k (k + m) (env.shuffles i)) :
    (run_scenario env e p).1 = .ended true := by
  obtain ⟨w0, w16⟩ := Workable.word h
  obtain ⟨T, h0, hT, hcp⟩ := check_params_ok hk hm hc h
  obtain ⟨x, eb, hx, hp⟩ := build_ok (env := env.toEnv) ht.1 h he hu h0 hT
  have hk32 : toUnsigned p.k = k ∧ toUnsigned p.m = m := by
    obtain ⟨_, _, _, _, _⟩ := h
    rw [hk, hm]
    exact ⟨toUnsigned_nat (by omega), toUnsigned_nat (by omega)⟩
  have hsz : size = 2 ∨ size = 4 ∨ size = 8 ∨ size = 16 := by simpa using ht.1
  unfold run_scenario
  rw [get_sizeof_T_spec w0 w16 ht]
  simp only
  rw [if_pos (by omega)]
  simp only [init_run_bench, Int.toNat_natCast]
  have e1 : check_params size e { p with sizeof_T := size } = check_params size e p := rfl
  rw [e1, hcp]
  simp only
  rw [hk32.1, hk32.2, eb]
  simp only
  have e2 : scenario env { p with sizeof_T := size } e.systematic x (T * p.word_size) = scenario env p e.systematic x (T * p.word_size) := rfl
  rw [e2, scenario_ok hx hp hs]

private theorem onPackets_eq {args : List (Char × List Char)} : onPackets (askedFor args) = used (askedFor args) := by
  unfold onPackets used
  congr 1
  rw [Bool.eq_iff_iff]
  simp [askedFor, or_assoc]

private theorem main_eq (env : Nat → Ec → Bench.Env) {args : List (Char × List Char)} (hv : ∀ a ∈ args, ValidOption a) :
    Bench.main env args = if races (used (askedFor args)) then ⟨[], .raised .ub⟩
      else ⟨(List.range (askedFor args).threads_nb).map (fun t => run_benchmark (env t) (used (askedFor args))),
        exitOf ((List.range (askedFor args).threads_nb).map (fun t => run_benchmark (env t) (used (askedFor args)))).flatten⟩ := by
  unfold Bench.main
  rw [(C72_options args _).2 ⟨hv, rfl⟩]
  simp only [onPackets_eq]
  rfl

private theorem races_iff (p : Params) : races p = true ↔ 2 ≤ p.threads_nb ∧ (p.fec_type = none ∨ p.sizeof_T = -1) := by
  unfold races writes reads
  by_cases h1 : p.fec_type = none <;> by_cases h2 : p.sizeof_T = -1 <;> simp [h1, h2]

/-- no process-ending run -/
private theorem exitOf_zero {l : List Run} (h : ∀ r ∈ l, ∀ e, r ≠ .raised e) : exitOf l = .status 0 := by
  induction l with
  | nil => rfl
  | cons r l ih =>
    have hl := ih (fun r' h' => h r' (by simp [h']))
    cases r with
    | raised e => exact absurd rfl (h _ (by simp) e)
    | noType => rfl
    | refused => exact hl
    | threw => exact hl
    | ended v => exact hl

/-- every thread sees the same runs -/
private theorem main_same {env : Nat → Ec → Bench.Env} {args : List (Char × List Char)} (hv : ∀ a ∈ args, ValidOption a)
    (hr : (askedFor args).threads_nb ≤ 1 ∨ (askedFor args).fec_type ≠ none ∧ (askedFor args).sizeof_T ≠ -1) {l : List Run}
    (h : ∀ t, t < (askedFor args).threads_nb → run_benchmark (env t) (used (askedFor args)) = l) (hl : ∀ r ∈ l, ∀ e, r ≠ .raised e) :
    Bench.main env args = ⟨List.replicate (askedFor args).threads_nb l, .status 0⟩ := by
  have hno : ¬ races (used (askedFor args)) = true := by
    rw [races_iff]
    rintro ⟨h1, h2⟩
    rcases hr with h | ⟨h3, h4⟩
    · change 2 ≤ (askedFor args).threads_nb at h1
      omega
    · rcases h2 with h2 | h2
      · exact h3 h2
      · exact h4 h2
  have hm : (List.range (askedFor args).threads_nb).map (fun t => run_benchmark (env t) (used (askedFor args)))
      = List.replicate (askedFor args).threads_nb l := by
    rw [List.eq_replicate_iff]
    refine ⟨by simp, fun x hx => ?_⟩
    obtain ⟨t, ht, rfl⟩ := List.mem_map.1 hx
    exact h t (List.mem_range.1 ht)
  rw [main_eq env hv, if_neg hno, hm, exitOf_zero]
  intro r hr e
  obtain ⟨x, hx, hrx⟩ := List.mem_flatten.1 hr
  rw [(List.mem_replicate.1 hx).2] at hrx
  exact hl r hrx e

/-- C72: with valid options that ask for a code and parameters it works with, every thread's run ends well, and the program returns 0.
Missing: what `Workable` and `UseOk` leave out, and more than one thread without a size of integers (`C73_undefined`). -/
theorem C72_program_partial {env : Nat → Ec → Bench.Env} {args : List (Char × List Char)} {e : Ec} {size k m : Nat}
    (hv : ∀ a ∈ args, ValidOption a) (he : (askedFor args).fec_type = some e)
    (hg : (askedFor args).threads_nb ≤ 1 ∨ (askedFor args).sizeof_T ≠ -1)
    (hk : (askedFor args).k = k) (hm : (askedFor args).m = m) (ht : UsesType e (askedFor args) size) (hc : ChunksOk (askedFor args))
    (h : Workable e size (askedFor args).word_size k m)
    (henv : ∀ t, t < (askedFor args).threads_nb → EnvOk (env t e).toEnv ∧ UseOk e size (used (askedFor args)) (env t e).reg ∧
      ∀ i, i < (askedFor args).samples_nb → Shuffles e.systematic k (k + m) ((env t e).shuffles i)) :
    Bench.main env args = ⟨List.replicate (askedFor args).threads_nb [.ended true], .status 0⟩ := by
  refine main_same hv (by rw [he]; rcases hg with h | h <;> simp [h]) (fun t ht' => ?_) (by simp)
  obtain ⟨h1, h2, h3⟩ := henv t ht'
  unfold run_benchmark
  rw [show (used (askedFor args)).fec_type = some e from he]
  simp only
  rw [C72_runs_partial (p := used (askedFor args)) (size := size) (k := k) (m := m) hk hm ht ⟨hc.pos, hc.chunk, hc.pkt, hc.whole⟩ h h1 h2 h3]

/-! ## Parameters that are refused -/

/-- C72 fails: a code of `2^(8w)` fragments, which is as long as codes with words of `w` bytes can be, is refused by the benchmark although
it can be built and works (`C71_vandermonde` and others). -/
theorem C72_full_length_refused (env : Bench.Env) (e : Ec) (p : Params) {size : Nat} (ht : UsesType e p size) (hw : 0 < p.word_size)
    (hw3 : p.word_size ≤ 3) (h : p.k + p.m = 2 ^ (8 * p.word_size)) : (run_scenario env e p).1 = .refused := by
  have hsz : size = 2 ∨ size = 4 ∨ size = 8 ∨ size = 16 := by simpa using ht.1
  unfold run_scenario
  rw [get_sizeof_T_spec hw (by omega) ht]
  simp only
  rw [if_pos (by omega)]
  simp only [init_run_bench, Int.toNat_natCast]
  suffices hc : check_params size e { p with sizeof_T := size } = .ok none by rw [hc]
  have hl : Arith.log2 (p.k + p.m) = .ok (8 * p.word_size) := by
    have : ((2 ^ (8 * p.word_size) : Nat) : Int) = p.k + p.m := by rw [h]; push_cast; rfl
    rw [← this, Arith.log2_eq (by positivity), Nat.log_pow (by norm_num)]
  have hlt : p.k + p.m < 2 ^ 31 := by
    rw [h]
    have : (2 : Int) ^ (8 * p.word_size) ≤ 2 ^ 24 := pow_le_pow_right₀ (by norm_num) (by omega)
    norm_num at this ⊢
    omega
  have hpos : 0 < p.k + p.m := by rw [h]; positivity
  unfold check_params
  simp only
  rw [if_neg (by omega)]
  repeat' split
  all_goals first | rfl | (rw [hl, ok_bind, wrap_small (by omega), if_pos (by omega)]; rfl)

/-- a run with words of 0 bytes -/
private theorem word_zero {env : Bench.Env} {e : Ec} {p : Params} {size : Nat} (hs : size ∈ [2, 4, 8, 16]) (h : p.sizeof_T = size)
    (hw : p.word_size = 0) (hr : -2 ^ 31 ≤ p.k + p.m ∧ p.k + p.m < 2 ^ 31) : (run_scenario env e p).1 = .refused := by
  have hsz : size = 2 ∨ size = 4 ∨ size = 8 ∨ size = 16 := by simpa using hs
  have e1 : get_sizeof_T e p = p := by unfold get_sizeof_T; rw [if_neg (by omega)]
  unfold run_scenario
  rw [e1]
  simp only
  rw [if_pos (by omega)]
  simp only [init_run_bench, check_params]
  rw [if_neg (by omega), if_pos hw]

/-- C72 fails: the status the program returns does not say whether anything was run.  With words of 0 bytes every thread refuses the parameters, and
the program returns 0. -/
theorem C72_refused_returns_zero {env : Nat → Ec → Bench.Env} {args : List (Char × List Char)} {e : Ec} {size : Nat}
    (hv : ∀ a ∈ args, ValidOption a) (he : (askedFor args).fec_type = some e) (hs : size ∈ [2, 4, 8, 16]) (ht : (askedFor args).sizeof_T = size)
    (hw : (askedFor args).word_size = 0) (hr : -2 ^ 31 ≤ (askedFor args).k + (askedFor args).m ∧ (askedFor args).k + (askedFor args).m < 2 ^ 31) :
    Bench.main env args = ⟨List.replicate (askedFor args).threads_nb [.refused], .status 0⟩ := by
  have hsz : size = 2 ∨ size = 4 ∨ size = 8 ∨ size = 16 := by simpa using hs
  refine main_same hv (.inr ⟨by rw [he]; simp, by omega⟩) (fun t _ => ?_) (by simp)
  unfold run_benchmark
  rw [show (used (askedFor args)).fec_type = some e from he]
  simp only
  rw [word_zero (p := used (askedFor args)) hs ht hw hr]

/-- C72 fails: a size for which there is no integer type ends the program with status 0 as well. -/
theorem C72_no_type_returns_zero {env : Nat → Ec → Bench.Env} {args : List (Char × List Char)} (hv : ∀ a ∈ args, ValidOption a)
    (he : (askedFor args).fec_type ≠ none) (ht : (askedFor args).sizeof_T ∉ [-1, 2, 4, 8, 16]) :
    Bench.main env args = ⟨List.replicate (askedFor args).threads_nb [.noType], .status 0⟩ := by
  simp only [List.mem_cons, List.not_mem_nil, or_false, not_or] at ht
  obtain ⟨e, he⟩ := Option.ne_none_iff_exists'.1 he
  refine main_same hv (.inr ⟨by rw [he]; simp, ht.1⟩) (fun t _ => ?_) (by simp)
  unfold run_benchmark
  rw [show (used (askedFor args)).fec_type = some e from he]
  simp only [run_scenario]
  have e1 : get_sizeof_T e (used (askedFor args)) = used (askedFor args) := by
    unfold get_sizeof_T
    rw [if_neg (show ¬ (used (askedFor args)).sizeof_T = -1 from ht.1)]
  rw [e1, if_neg]
  show ¬((askedFor args).sizeof_T = 2 ∨ (askedFor args).sizeof_T = 4 ∨ (askedFor args).sizeof_T = 8 ∨ (askedFor args).sizeof_T = 16)
  omega

/-- C72: a status other than 0 means that an option was wrong. -/
theorem C72_status {env : Nat → Ec → Bench.Env} {args : List (Char × List Char)} {v : Nat} (h : (Bench.main env args).exit = .status v)
    (hv : v ≠ 0) : ∃ a ∈ args, ¬ ValidOption a := by
  by_contra hc
  push Not at hc
  rw [main_eq env hc] at h
  have key : ∀ l : List Run, exitOf l = .status v → v = 0 := by
    intro l
    induction l with
    | nil => intro h; cases h; rfl
    | cons r l ih =>
      intro h
      cases r with
      | raised e => cases h
      | noType => cases h; rfl
      | refused => exact ih h
      | threw => exact ih h
      | ended v => exact ih h
  split at h
  · cases h
  · exact hv (key _ h)

private theorem ite_ne' {P : Prop} [Decidable P] {α : Type} {a b z : α} (h1 : a ≠ z) (h2 : b ≠ z) : (if P then a else b) ≠ z := by
  split
  · exact h1
  · exact h2

private theorem option_error {p : Params} {c : Char} {s : List Char} {x : Driver.Exit} (h : option p c s = .error x) : x ≠ .status 0 := by
  rintro rfl
  revert h
  have num : ∀ (f : Int → Params), (match stoi s with | .ok v => Except.ok (f v) | .error e => .error (Driver.Exit.raised e)) ≠ .error (.status 0) := by
    intro f
    cases stoi s <;> simp
  unfold option
  refine ite_ne' (num _) (ite_ne' ?_ (ite_ne' ?_ (ite_ne' (num _) (ite_ne' (num _) (ite_ne' (num _) (ite_ne' (num _) (ite_ne' (num _) (ite_ne' (num _)
    (ite_ne' (num _) (ite_ne' (num _) (ite_ne' (num _) (by simp))))))))))))
  · cases codeName s <;> simp
  · cases sceName s <;> simp

private theorem options_error : ∀ {args : List (Char × List Char)} {p : Params} {x : Driver.Exit}, options args p = .error x → x ≠ .status 0
  | [], _, _, h => by cases h
  | a :: l, p, x, h => by
    unfold options at h
    split at h
    · exact options_error h
    · rename_i y e
      cases h
      exact option_error e

/-- C72: with an option that is not one of the program's, or has an argument that means nothing, nothing is run and the status is not 0. -/
theorem C72_wrong_option (env : Nat → Ec → Bench.Env) {args : List (Char × List Char)} (h : ∃ a ∈ args, ¬ ValidOption a) :
    (Bench.main env args).runs = [] ∧ (Bench.main env args).exit ≠ .status 0 := by
  unfold Bench.main
  cases e : options args {} with
  | ok p =>
    obtain ⟨a, ha, hn⟩ := h
    exact absurd (options_valid.1 ⟨p, e⟩ a ha) hn
  | error x => exact ⟨rfl, options_error e⟩

/-! ## Command lines -/

private theorem letters : Driver.Letters optstring [] benchLetters := by
  refine ⟨fun c h => by simp at h, fun c h => ?_, fun c _ h => ?_, by decide⟩
  · simp only [benchLetters, List.mem_cons, List.not_mem_nil, or_false] at h
    rcases h with rfl | rfl | rfl | rfl | rfl | rfl | rfl | rfl | rfl | rfl | rfl | rfl <;> decide
  · simp only [benchLetters, List.mem_cons, List.not_mem_nil, or_false, not_or] at h
    obtain ⟨h1, h2, h3, h4, h5, h6, h7, h8, h9, h10, h11, h12⟩ := h
    have e : optstring = ['t', ':', 'e', ':', 'w', ':', 'k', ':', 'm', ':', 'c', ':', 'n', ':', 's', ':', 'x', ':', 'g', ':', 'p', ':', 'f', ':'] := by decide
    rw [e]
    simp only [Driver.hasArg_skip (.inr rfl), Driver.hasArg_skip (.inl (Ne.symm h1)), Driver.hasArg_skip (.inl (Ne.symm h2)),
      Driver.hasArg_skip (.inl (Ne.symm h3)), Driver.hasArg_skip (.inl (Ne.symm h4)), Driver.hasArg_skip (.inl (Ne.symm h5)),
      Driver.hasArg_skip (.inl (Ne.symm h6)), Driver.hasArg_skip (.inl (Ne.symm h7)), Driver.hasArg_skip (.inl (Ne.symm h8)),
      Driver.hasArg_skip (.inl (Ne.symm h9)), Driver.hasArg_skip (.inl (Ne.symm h10)), Driver.hasArg_skip (.inl (Ne.symm h11)),
      Driver.hasArg_skip (.inl (Ne.symm h12))]
    rfl

/-- C72: arguments that stand for options, in whichever way they are written, have the effect of these options. -/
theorem C72_command_line {posix : Bool} {argv : List (List Char)} {args : List (Char × List Char)} (h : OnLine [] benchLetters posix argv args)
    (env : Nat → Ec → Bench.Env) (prog : List Char) : Bench.mainArgv env posix (prog :: argv) = Bench.main env args := by
  unfold Bench.mainArgv
  rw [List.tail_cons, Driver.getopt_written letters h]

/-- C72: with arguments that do not stand for options nothing is run and the status is not 0. -/
theorem C72_command_line_wrong {posix : Bool} {argv : List (List Char)} (h : ¬ ∃ args, OnLine [] benchLetters posix argv args)
    (env : Nat → Ec → Bench.Env) (prog : List Char) :
    (Bench.mainArgv env posix (prog :: argv)).runs = [] ∧ (Bench.mainArgv env posix (prog :: argv)).exit ≠ .status 0 := by
  rcases Driver.written_or letters posix argv with w | q
  · exact absurd w h
  · refine C72_wrong_option env ⟨('?', []), q, ?_⟩
    rintro (⟨a, _⟩ | ⟨a, _⟩ | ⟨a, _⟩) <;> simp at a

/-- `benchmark -e rs-fnt -k3 out -m 2` -/
example : OnLine [] benchLetters false ["-e".toList, "rs-fnt".toList, "-k3".toList, "out".toList, "-m".toList, "2".toList]
    [('e', "rs-fnt".toList), ('k', ['3']), ('m', ['2'])] := by
  refine .apart [] 'e' _ (by decide) (by decide) ?_
  refine .joined [] 'k' ['3'] (by decide) (by decide) (by decide) ?_
  refine .other _ (by decide) rfl ?_
  exact .apart [] 'm' _ (by decide) (by decide) .nil

/-- `benchmark -h` -/
example (env : Nat → Ec → Bench.Env) : (Bench.mainArgv env false [[], "-h".toList]).exit ≠ .status 0 := by
  refine (C72_command_line_wrong ?_ env []).2
  rintro ⟨args, w⟩
  have e := Driver.getopt_written letters w
  have : ('?', []) ∈ args := by rw [← e]; decide +kernel
  exact absurd (Driver.onLine_letters w _ this) (by decide)

/-! ## All codes -/

/-- encoding word by word with the systematic Fermat number code -/
private theorem scenario_ub {env : Bench.Env} {p : Params} {b db k m : Nat} (hT : WordType b db) (hP : FntParams p.word_size k m) (hsam : 0 < p.samples_nb)
    {size : Nat} (hsize : p.word_size ≤ size) (pkt : Nat) :
    ∃ B, RsFnt.mkBase b db true p.word_size k m pkt env.mem = .ok B ∧
      scenario env p true (env.words (RsFnt.fec B)) size = .error .ub := by
  obtain ⟨B, eB, hk, hn, hub⟩ := C25_horizontal_systematic_encode_undefined hT hP pkt env.mem
  refine ⟨B, eB, ?_⟩
  have hw0 : 0 < p.word_size := by rcases hP.hw with h | h <;> omega
  set x := env.words (RsFnt.fec B) with hx
  have hkx : x.1.n_data = k := hk
  have hnx : x.1.n_outputs = m := hn
  have hr := room_init env x size
  obtain ⟨st, e, hS⟩ := gen_data_spec (F := x.1) (Inv := fun _ => True) (by omega) trivial hr
  have henc : Bench.encode x.1 st = .error .ub := by
    unfold Bench.encode
    have hd := hS.room.d
    rw [hkx] at hd
    have hlen : ∀ i, i < k → p.word_size ≤ (gt (st.d.map Array.toList).toArray i).length := by
      intro i hi
      rw [gt_eq (by simp; omega)]
      simp only [List.getElem_toArray, List.getElem_map, Array.length_toList]
      rw [hd.2 _ (List.getElem_mem _)]
      exact hsize
    have := hub (st.d.map Array.toList).toArray (Array.replicate m []) st.props (env.memEnc st.fec) (by simp [hd.1]) (by simp)
      (by rw [hS.room.props, hnx]) hlen
    have he : x.1.enc st.fec (st.d.map Array.toList).toArray (Array.replicate x.1.n_outputs []) st.props = .error .ub := by
      rw [hnx]
      change ((RsFnt.fec B).encode_streams_horizontal _ _ _ (env.memEnc st.fec) >>= _) = _
      rw [this]; rfl
    rw [he]; rfl
  obtain ⟨n, hn1⟩ : ∃ n, p.samples_nb = n + 1 := ⟨p.samples_nb - 1, by omega⟩
  unfold scenario
  cases p.sce_type with
  | encOnly =>
    simp only [enc_only, e, ok_bind, hn1, encLoop, henc]
    rfl
  | decOnly =>
    simp only [dec_only, e, ok_bind, henc]
    rfl
  | encDec =>
    simp only [enc_dec, e, ok_bind, hn1, List.range_succ_eq_map, List.map_cons, decLoop, if_true, henc]
    rfl

/-- what `run_scenario` does with a code whose parameters it accepts and an object that is built -/
private theorem run_built {env : Bench.Env} {e : Ec} {p : Params} {size k m : Nat} (hk : p.k = k) (hm : p.m = m) (ht : UsesType e p size)
    (hc : ChunksOk p) (h : Workable e size p.word_size k m) :
    ∃ T, 0 < T ∧ (run_scenario env e p).2 = { p with sizeof_T := size } ∧
      ∀ x, Bench.build env.toEnv (8 * size) e p.operation_on_packet p.word_size k m p.pkt_size = .ok x →
        (run_scenario env e p).1 = match scenario env p e.systematic x (T * p.word_size) with
          | .error x => .ofErr x
          | .ok v => .ended v := by
  obtain ⟨w0, w16⟩ := Workable.word h
  obtain ⟨T, h0, hT, hcp⟩ := check_params_ok hk hm hc h
  have hk32 : toUnsigned p.k = k ∧ toUnsigned p.m = m := by
    obtain ⟨_, _, _, _, _⟩ := h
    rw [hk, hm]
    exact ⟨toUnsigned_nat (by omega), toUnsigned_nat (by omega)⟩
  have hsz : size = 2 ∨ size = 4 ∨ size = 8 ∨ size = 16 := by simpa using ht.1
  refine ⟨T, h0, ?_, fun x eb => ?_⟩
  · unfold run_scenario
    rw [get_sizeof_T_spec w0 w16 ht]
    simp only
    rw [if_pos (by omega)]
  · unfold run_scenario
    rw [get_sizeof_T_spec w0 w16 ht]
    simp only
    rw [if_pos (by omega)]
    simp only [init_run_bench, Int.toNat_natCast]
    have e1 : check_params size e { p with sizeof_T := size } = check_params size e p := rfl
    rw [e1, hcp]
    simp only
    rw [hk32.1, hk32.2, eb]
    rfl

/-- C72 fails: a run of all the codes, which is the default, with parameters the Fermat number codes support, is undefined behaviour.  With several
threads they race; a single one runs the first code well, and then the systematic Fermat number code word by word, which encodes out of range. -/
theorem C72_all_undefined {env : Nat → Ec → Bench.Env} {args : List (Char × List Char)} {size k m : Nat} (hv : ∀ a ∈ args, ValidOption a)
    (he : (askedFor args).fec_type = none) (hg : 0 < (askedFor args).threads_nb) (hn : 0 < (askedFor args).samples_nb)
    (hk : (askedFor args).k = k) (hm : (askedFor args).m = m) (ht : UsesType .fnt (askedFor args) size) (h4 : 4 ≤ size) (hc : ChunksOk (askedFor args))
    (h : Workable .fnt size (askedFor args).word_size k m) (henv : EnvOk (env 0 .fnt).toEnv)
    (hsh : ∀ i, i < (askedFor args).samples_nb → Shuffles false k (k + m) ((env 0 .fnt).shuffles i)) :
    (Bench.main env args).exit = .raised .ub ∧
      ((askedFor args).threads_nb = 1 → (Bench.main env args).runs = [[.ended true, .raised .ub]]) := by
  rw [main_eq env hv]
  have hsz : size = 2 ∨ size = 4 ∨ size = 8 ∨ size = 16 := by simpa using ht.1
  by_cases hr : 2 ≤ (askedFor args).threads_nb
  · rw [if_pos ((races_iff (used (askedFor args))).2 ⟨hr, .inl he⟩)]
    exact ⟨rfl, fun h1 => by omega⟩
  have h1 : (askedFor args).threads_nb = 1 := by omega
  rw [if_neg (by rw [races_iff]; rintro ⟨q, _⟩; exact hr q), h1]
  set q := { used (askedFor args) with fec_type := some Ec.fnt } with hq
  have hop : q.operation_on_packet = false := by
    show (used (askedFor args)).operation_on_packet = false
    unfold used
    simp only [he]
    simp
  have hcq : ChunksOk q := ⟨hc.pos, hc.chunk, hc.pkt, hc.whole⟩
  have r1 : (run_scenario (env 0 .fnt) .fnt q).1 = .ended true :=
    C72_runs_partial (p := q) (size := size) (k := k) (m := m) hk hm ht hcq h henv
      ⟨fun h => (by rw [hop] at h; cases h), fun h => (by cases h)⟩ hsh
  obtain ⟨_, _, r2, _⟩ := run_built (env := env 0 .fnt) (p := q) hk hm ht hcq h
  set q' := { q with sizeof_T := (size : Int), fec_type := some Ec.fntSys } with hq'
  have hcq' : ChunksOk q' := ⟨hc.pos, hc.chunk, hc.pkt, hc.whole⟩
  have h' : Workable .fntSys size q'.word_size k m := h
  obtain ⟨T, hT, _, r3⟩ := run_built (env := env 0 .fntSys) (p := q') (e := .fntSys) (size := size) hk hm ⟨ht.1, .inl rfl⟩ hcq' h'
  obtain ⟨k0, m0, hl, _, hx⟩ := h
  simp only at hx
  have hTy : WordType (8 * size) (double (8 * size)) := by
    have : size = 4 ∨ size = 8 := by omega
    rcases this with rfl | rfl
    · exact .inl ⟨rfl, rfl⟩
    · exact .inr ⟨rfl, rfl⟩
  obtain ⟨B, eB, hub⟩ := scenario_ub (env := env 0 .fntSys) (p := q') hTy ⟨hx.1, k0, m0, le_of_lt hl, hx.2.2.2⟩ hn
    (size := T * q'.word_size) (Nat.le_mul_of_pos_left _ hT) q'.pkt_size
  have hb : Bench.build (env 0 .fntSys).toEnv (8 * size) .fntSys q'.operation_on_packet q'.word_size k m q'.pkt_size
      = .ok ((env 0 .fntSys).words (RsFnt.fec B)) := by
    rw [show q'.operation_on_packet = false from hop]
    show (RsFnt.mkBase _ _ _ _ _ _ _ _).map _ = _
    rw [eB]; rfl
  have r4 : (run_scenario (env 0 .fntSys) .fntSys q').1 = .raised .ub := by
    rw [r3 _ hb, show Ec.systematic .fntSys = true from rfl, hub]
    rfl
  have hrun : run_benchmark (env 0) (used (askedFor args)) = [.ended true, .raised .ub] := by
    unfold run_benchmark
    rw [show (used (askedFor args)).fec_type = none from he]
    simp only [Ec.every, run_all]
    rw [← hq]
    have hp1 : run_scenario (env 0 .fnt) .fnt q = (.ended true, { q with sizeof_T := (size : Int) }) := Prod.ext r1 r2
    rw [hp1]
    simp only
    rw [← hq']
    have hp2 : run_scenario (env 0 .fntSys) .fntSys q' = (.raised .ub, (run_scenario (env 0 .fntSys) .fntSys q').2) := Prod.ext r4 rfl
    rw [hp2]
  simp [hrun, exitOf]

/-- a type no wider than a word, for codes that need more -/
private theorem narrow {env : Bench.Env} {e : Ec} {p : Params} (he : e = .fnt ∨ e = .fntSys ∨ e = .gfpFft ∨ e = .nf4) (hw : p.word_size = 4)
    (ht : UsesType e p 4) (hr : -2 ^ 31 ≤ p.k + p.m ∧ p.k + p.m < 2 ^ 31) : run_scenario env e p = (.refused, { p with sizeof_T := 4 }) := by
  unfold run_scenario
  rw [get_sizeof_T_spec (by omega) (by omega) ht]
  simp only
  rw [if_pos (by omega)]
  refine Prod.ext ?_ rfl
  simp only [init_run_bench, check_params, hw]
  rw [if_neg (by omega)]
  rcases he with rfl | rfl | rfl | rfl <;> simp [wrap]

/-- C72 fails: in a run of all codes the first one fixes the size of integers for the others.  With words of 4 bytes, and no size
asked for, the codes on packed Fermat fields and on prime fields are refused although each runs well when it is asked for alone. -/
theorem C72_all_refuses_supported {env : Nat → Ec → Bench.Env} {args : List (Char × List Char)} {k m : Nat} (hv : ∀ a ∈ args, ValidOption a)
    (he : (askedFor args).fec_type = none) (hg : (askedFor args).threads_nb = 1) (hk : (askedFor args).k = k) (hm : (askedFor args).m = m)
    (ht : (askedFor args).sizeof_T = -1) (hw : (askedFor args).word_size = 4) (hc : ChunksOk (askedFor args)) (k0 : 0 < k) (hk2 : 2 * k ≤ 8192)
    (m0 : 0 < m) (m2 : m ≤ 2) (henv : ∀ e, EnvOk (env 0 e).toEnv)
    (hsh : ∀ e i, i < (askedFor args).samples_nb → Shuffles e.systematic k (k + m) ((env 0 e).shuffles i)) :
    Bench.main env args = ⟨[[.refused, .refused, .refused, .refused, .ended true, .ended true, .ended true, .ended true]], .status 0⟩ ∧
      ∀ name ∈ ["rs-nf4", "rs-gfp-fft"], Bench.main env (args ++ [('e', name.toList)]) = ⟨[[.ended true]], .status 0⟩ := by
  have hop : (used (askedFor args)).operation_on_packet = false := by
    unfold used
    simp only [he]
    simp
  have hr : -2 ^ 31 ≤ (askedFor args).k + (askedFor args).m ∧ (askedFor args).k + (askedFor args).m < 2 ^ 31 := by omega
  have hW : ∀ e size, (e = .gf2nFftAdd ∨ e = .gf2nV ∨ e = .gf2nC ∨ e = .gf2nFft) ∧ size = 4 ∨ (e = .nf4 ∨ e = .gfpFft) ∧ size = 8 → Workable e size 4 k m := by
    rintro e size (⟨rfl | rfl | rfl | rfl, rfl⟩ | ⟨rfl | rfl, rfl⟩) <;> refine ⟨k0, m0, by norm_num; omega, by norm_num; omega, ?_⟩ <;>
      norm_num [fftMax] <;> omega
  have good : ∀ (p : Params) e size, p.k = k → p.m = m → p.word_size = 4 → ChunksOk p → p.operation_on_packet = false →
      p.samples_nb = (askedFor args).samples_nb → UsesType e p size →
      (e = .gf2nFftAdd ∨ e = .gf2nV ∨ e = .gf2nC ∨ e = .gf2nFft) ∧ size = 4 ∨ (e = .nf4 ∨ e = .gfpFft) ∧ size = 8 →
      run_scenario (env 0 e) e p = (.ended true, { p with sizeof_T := size }) := by
    intro p e size h1 h2 h3 h4 h5 h6 h7 h8
    have h9 : Workable e size p.word_size k m := by rw [h3]; exact hW e size h8
    refine Prod.ext (C72_runs_partial h1 h2 h7 h4 h9 (henv e) ⟨fun h => (by rw [h5] at h; cases h), fun h => ?_⟩ (fun i hi => hsh e i (by omega))) ?_
    · rcases h8 with ⟨h8, _⟩ | ⟨h8, _⟩ <;> simp [h] at h8
    · obtain ⟨_, _, q, _⟩ := run_built (env := env 0 e) h1 h2 h7 h4 h9
      exact q
  constructor
  · rw [main_same hv (.inl (by omega)) (l := [.refused, .refused, .refused, .refused, .ended true, .ended true, .ended true, .ended true])
      (fun t ht' => ?_) (by simp), hg]
    · rfl
    have ht0 : t = 0 := by omega
    subst ht0
    have step : ∀ e es (p p' : Params) r, run_scenario (env 0 e) e { p with fec_type := some e } = (r, p') → r = .refused ∨ r = .ended true →
        run_all (env 0) (e :: es) p = r :: run_all (env 0) es p' := by
      intro e es p p' r h1 h2
      simp only [run_all, h1]
      rcases h2 with rfl | rfl <;> rfl
    have hcu : ∀ (p : Params), p.chunk_size = (askedFor args).chunk_size → p.pkt_size = (askedFor args).pkt_size → p.word_size = (askedFor args).word_size →
        ChunksOk p := by
      intro p h1 h2 h3
      exact ⟨by rw [h1]; exact hc.pos, by rw [h1]; exact hc.chunk, by rw [h2]; exact hc.pkt, by rw [h1, h2, h3]; exact hc.whole⟩
    have ut : ∀ e (p : Params), p.sizeof_T = 4 → UsesType e p 4 := fun e p h => ⟨by simp, .inl h⟩
    unfold run_benchmark
    rw [show (used (askedFor args)).fec_type = none from he]
    simp only [Ec.every]
    rw [step .fnt _ _ _ _ (narrow (.inl rfl) hw ⟨by simp, .inr ⟨ht, by show 4 = defaultType .fnt (askedFor args).word_size; rw [hw]; rfl⟩⟩ hr) (.inl rfl),
      step .fntSys _ _ _ _ (narrow (.inr (.inl rfl)) hw (ut _ _ rfl) hr) (.inl rfl),
      step .nf4 _ _ _ _ (narrow (.inr (.inr (.inr rfl))) hw (ut _ _ rfl) hr) (.inl rfl),
      step .gfpFft _ _ _ _ (narrow (.inr (.inr (.inl rfl))) hw (ut _ _ rfl) hr) (.inl rfl),
      step .gf2nFftAdd _ _ _ _ (good _ _ 4 hk hm hw (hcu _ rfl rfl rfl) hop rfl (ut _ _ rfl) (.inl ⟨.inl rfl, rfl⟩)) (.inr rfl),
      step .gf2nV _ _ _ _ (good _ _ 4 hk hm hw (hcu _ rfl rfl rfl) hop rfl (ut _ _ rfl) (.inl ⟨.inr (.inl rfl), rfl⟩)) (.inr rfl),
      step .gf2nC _ _ _ _ (good _ _ 4 hk hm hw (hcu _ rfl rfl rfl) hop rfl (ut _ _ rfl) (.inl ⟨.inr (.inr (.inl rfl)), rfl⟩)) (.inr rfl),
      step .gf2nFft _ _ _ _ (good _ _ 4 hk hm hw (hcu _ rfl rfl rfl) hop rfl (ut _ _ rfl) (.inl ⟨.inr (.inr (.inr rfl)), rfl⟩)) (.inr rfl)]
    rfl
  · intro name hmem
    obtain ⟨e, hname, hee⟩ : ∃ e, named benchCodes name.toList = some (some e) ∧ (e = .nf4 ∨ e = .gfpFft) := by
      simp only [List.mem_cons, List.not_mem_nil, or_false] at hmem
      rcases hmem with rfl | rfl
      · exact ⟨.nf4, by decide, .inl rfl⟩
      · exact ⟨.gfpFft, by decide, .inr rfl⟩
    have ha : askedFor (args ++ [('e', name.toList)]) = { askedFor args with fec_type := some e } := by rw [askedFor_code, hname]; rfl
    have key := C72_program_partial (env := env) (args := args ++ [('e', name.toList)]) (e := e) (size := 8) (k := k) (m := m)
      (fun a h => by
        rcases List.mem_append.1 h with h | h
        · exact hv a h
        · rw [List.mem_singleton.1 h]; exact .inr (.inl ⟨rfl, _, hname⟩))
      (by rw [ha]) (.inl (by rw [ha]; exact hg.le)) (by rw [ha]; exact hk) (by rw [ha]; exact hm)
      (by rw [ha]; refine ⟨by simp, .inr ⟨ht, ?_⟩⟩; show 8 = defaultType e (askedFor args).word_size; rw [hw]; rcases hee with rfl | rfl <;> rfl)
      (by rw [ha]; exact ⟨hc.pos, hc.chunk, hc.pkt, hc.whole⟩)
      (by rw [ha]; show Workable e 8 (askedFor args).word_size k m; rw [hw]; exact hW e 8 (.inr ⟨hee, rfl⟩))
      (fun t ht' => by
        rw [ha] at ht' ⊢
        change t < (askedFor args).threads_nb at ht'
        have ht0 : t = 0 := by omega
        subst ht0
        refine ⟨henv e, ⟨fun ho => ⟨?_, ?_⟩, ?_⟩, fun i hi => hsh e i hi⟩
        · have : (askedFor args).pkt_size ≠ 0 := by
            have := of_decide_eq_true ho
            exact this.2
          show 0 < (askedFor args).pkt_size
          omega
        · rintro (rfl | rfl) <;> simp at hee
        · rintro rfl; simp at hee)
    rw [key, ha]
    show (⟨List.replicate (askedFor args).threads_nb _, _⟩ : Outcome) = _
    rw [hg]; rfl

/-! ## Threads -/

/-- the number of threads does not matter to a thread -/
private theorem run_threads (env : Ec → Bench.Env) (p : Params) (n : Nat) : run_benchmark env { p with threads_nb := n } = run_benchmark env p := by
  have h1 : ∀ env e (p : Params), run_scenario env e { p with threads_nb := n } = ((run_scenario env e p).1, { (run_scenario env e p).2 with threads_nb := n }) := by
    intro env e p
    have hg : get_sizeof_T e { p with threads_nb := n } = { get_sizeof_T e p with threads_nb := n } := by
      unfold get_sizeof_T
      by_cases h : p.sizeof_T = -1
      · rw [if_pos h, if_pos h]
      · rw [if_neg h, if_neg h]
    unfold run_scenario
    rw [hg]
    generalize get_sizeof_T e p = q
    simp only
    by_cases h : q.sizeof_T = 2 ∨ q.sizeof_T = 4 ∨ q.sizeof_T = 8 ∨ q.sizeof_T = 16
    · rw [if_pos h, if_pos h]; rfl
    · rw [if_neg h, if_neg h]
  have h2 : ∀ es (p : Params), run_all env es { p with threads_nb := n } = run_all env es p := by
    intro es
    induction es with
    | nil => intro p; rfl
    | cons e es ih =>
      intro p
      have := h1 (env e) e { p with fec_type := some e }
      simp only [run_all]
      simp only at this
      rw [this]
      rcases run_scenario (env e) e { p with fec_type := some e } with ⟨r, p'⟩
      cases r <;> simp only [ih]
  unfold run_benchmark
  simp only
  split
  · exact h2 _ p
  · simp only [h1]

/-- C73 fails: with two threads or more, all codes, or no size asked for the integers, are undefined behaviour: each thread writes a member
of the parameters all share.  That is so by default. -/
theorem C73_undefined {env : Nat → Ec → Bench.Env} {args : List (Char × List Char)} (hv : ∀ a ∈ args, ValidOption a)
    (hg : 2 ≤ (askedFor args).threads_nb) (h : (askedFor args).fec_type = none ∨ (askedFor args).sizeof_T = -1) :
    (Bench.main env args).exit = .raised .ub := by
  rw [main_eq env hv, if_pos ((races_iff (used (askedFor args))).2 ⟨hg, h⟩)]

/-- C73: in all other cases each thread does what it does when it is the only one. -/
theorem C73_independent_partial {env : Nat → Ec → Bench.Env} {args : List (Char × List Char)} (hv : ∀ a ∈ args, ValidOption a)
    (h : (askedFor args).threads_nb ≤ 1 ∨ (askedFor args).fec_type ≠ none ∧ (askedFor args).sizeof_T ≠ -1) :
    (Bench.main env args).runs.length = (askedFor args).threads_nb ∧
      ∀ t, t < (askedFor args).threads_nb → ∃ l, (Bench.main env args).runs[t]? = some l ∧
        (Bench.main (fun _ => env t) (args ++ [('g', "1".toList)])).runs = [l] := by
  have hno : ¬ races (used (askedFor args)) = true := by
    rw [races_iff]
    rintro ⟨h1, h2⟩
    change 2 ≤ (askedFor args).threads_nb at h1
    rcases h with h | ⟨h3, h4⟩
    · omega
    · rcases h2 with h2 | h2
      · exact h3 h2
      · exact h4 h2
  have h1 : stoi "1".toList = .ok ((1 : Nat) : Int) := by decide
  have ha := askedFor_threads args h1 (by norm_num)
  rw [main_eq env hv, if_neg hno]
  refine ⟨by simp, fun t ht => ⟨run_benchmark (env t) (used (askedFor args)), by simp [ht], ?_⟩⟩
  rw [main_eq (fun _ => env t) (args := args ++ [('g', "1".toList)]) (fun a h => by
    rcases List.mem_append.1 h with h | h
    · exact hv a h
    · rw [List.mem_singleton.1 h]; exact .inl ⟨by simp, _, h1⟩), ha]
  rw [if_neg (by rw [races_iff]; rintro ⟨q, _⟩; exact absurd q (by show ¬ 2 ≤ 1; omega))]
  simp only [List.range_one, List.map_cons, List.map_nil]
  exact congrArg (fun l => [l]) (run_threads (env t) (used (askedFor args)) 1)

/-! ## The hypotheses can be met -/

private def exArgs (e : String) (l : List (Char × String)) : List (Char × List Char) :=
  (('e', e) :: l).map (fun a => (a.1, a.2.toList))

private theorem exValid {l : List (Char × List Char)} (h : ∀ a ∈ l, (a.1 ∈ ['t', 'w', 'k', 'm', 'c', 'p', 'n', 'x', 'g', 'f'] ∧ (stoi a.2).isOk = true) ∨
    (a.1 = 'e' ∧ (named benchCodes a.2).isSome = true)) : ∀ a ∈ l, ValidOption a := by
  intro a ha
  rcases h a ha with ⟨h1, h2⟩ | ⟨h1, h2⟩
  · refine .inl ⟨h1, ?_⟩
    cases e : stoi a.2 with
    | error x => rw [e] at h2; cases h2
    | ok v => exact ⟨v, rfl⟩
  · exact .inr (.inl ⟨h1, Option.isSome_iff_exists.1 h2⟩)

/-- a shuffle of five chunks that loses data chunks 0 and 1 -/
private theorem exShuffle (sys : Bool) : Shuffles sys 3 (3 + 2) [#[4, 2, 3, 0, 1]] :=
  ⟨by unfold Order; decide +kernel, #[4, 2, 3, 0, 1], by simp, fun _ => ⟨0, by decide, by decide⟩⟩

private def exEnv (reg : Option Nat) : Bench.Env where
  reg := reg
  hi := fun _ => 0
  mem := fun _ => 0
  junk := fun _ _ => 0
  junk3 := fun _ _ _ => 0
  heap := #[]
  memEnc := fun _ _ => 0
  memDec := fun _ _ => 0
  junkEnc := fun _ _ _ => 0
  junkDec := fun _ _ _ => 0
  time := 0
  chunk := fun _ _ _ => 0
  shuffles := fun _ => [#[4, 2, 3, 0, 1]]

/-- `-e rs-fnt -t 4 -g 2` in an SSE build: two threads run 100 samples well -/
example : Bench.main (fun _ _ => exEnv (some 16)) (exArgs "rs-fnt" [('t', "4"), ('g', "2")]) =
    ⟨[[.ended true], [.ended true]], .status 0⟩ := by
  have h := C72_program_partial (env := fun _ _ => exEnv (some 16)) (args := exArgs "rs-fnt" [('t', "4"), ('g', "2")]) (e := .fnt) (size := 4) (k := 3)
    (m := 2) (exValid (by decide)) (by decide) (.inr (by decide)) (by decide) (by decide) ⟨by simp, .inl (by decide)⟩
    ⟨by decide, by decide, by decide, fun h => absurd h (by decide)⟩
    (by rw [show (askedFor (exArgs "rs-fnt" [('t', "4"), ('g', "2")])).word_size = 2 by decide]; exact ⟨by norm_num, by norm_num, by norm_num, by norm_num, by norm_num⟩)
    (fun t _ => ⟨.inr (.inl rfl), ⟨fun _ => ⟨by decide, fun _ _ => .inr (by decide)⟩, fun h => by cases h⟩, fun i _ => exShuffle _⟩)
  rw [h]
  congr 1

/-- `-e all -g 1`: one thread meets undefined behaviour in the second code -/
example : (Bench.main (fun _ _ => exEnv none) (exArgs "all" [('g', "1")])).runs = [[.ended true, .raised .ub]] :=
  (C72_all_undefined (env := fun _ _ => exEnv none) (args := exArgs "all" [('g', "1")]) (size := 4) (k := 3) (m := 2) (exValid (by decide)) (by decide)
    (by decide) (by decide) (by decide) (by decide) ⟨by simp, .inr ⟨by decide, by decide⟩⟩ (by norm_num)
    ⟨by decide, by decide, by decide, fun h => absurd h (by decide)⟩
    (by rw [show (askedFor (exArgs "all" [('g', "1")])).word_size = 2 by decide]; exact ⟨by norm_num, by norm_num, by norm_num, by norm_num, by norm_num⟩)
    (.inl rfl) (fun i _ => exShuffle _)).2 (by decide)

/-- no options: four threads race -/
example : (Bench.main (fun _ _ => exEnv none) []).exit = .raised .ub :=
  C73_undefined (by simp) (by decide) (.inl (by decide))

/-- `-e all -g 1 -w 4` meets the hypotheses of `C72_all_refuses_supported` -/
example : ∀ name ∈ ["rs-nf4", "rs-gfp-fft"], Bench.main (fun _ _ => exEnv none) (exArgs "all" [('g', "1"), ('w', "4")] ++ [('e', name.toList)])
    = ⟨[[.ended true]], .status 0⟩ :=
  (C72_all_refuses_supported (env := fun _ _ => exEnv none) (args := exArgs "all" [('g', "1"), ('w', "4")]) (k := 3) (m := 2) (exValid (by decide))
    (by decide) (by decide) (by decide) (by decide) (by decide) (by decide) ⟨by decide, by decide, by decide, fun h => absurd h (by decide)⟩
    (by norm_num) (by norm_num) (by norm_num) (by norm_num) (fun e => .inl rfl) (fun e i _ => exShuffle _)).2

/-- 200 data and 56 parity chunks of one-byte words are refused -/
example : (run_scenario (exEnv none) .gf2nV { word_size := 1, k := 200, m := 56 }).1 = .refused :=
  C72_full_length_refused _ _ _ (size := 4) ⟨by simp, .inr ⟨rfl, by decide⟩⟩ (by decide) (by decide) (by norm_num)

/-- `-e rs-fnt -t 4 -w 0`, and `-e rs-fnt -t 3` -/
example : Bench.main (fun _ _ => exEnv none) (exArgs "rs-fnt" [('t', "4"), ('w', "0"), ('g', "1")]) = ⟨[[.refused]], .status 0⟩ ∧
    Bench.main (fun _ _ => exEnv none) (exArgs "rs-fnt" [('t', "3"), ('g', "1")]) = ⟨[[.noType]], .status 0⟩ := by
  constructor
  · rw [C72_refused_returns_zero (e := .fnt) (size := 4) (exValid (by decide)) (by decide) (by simp) (by decide) (by decide) (by decide)]
    congr 1
  · rw [C72_no_type_returns_zero (exValid (by decide)) (by decide) (by decide)]
    congr 1

/-- an unknown code -/
example : (Bench.main (fun _ _ => exEnv none) [('e', "rs".toList)]).exit = .status 1 := by decide

end Quad.Props
