import Verif.Spec.BenchMain
import Verif.Lemmas.ArithExp
import Verif.Lemmas.Bench
import Verif.Lemmas.DriverMain

/-!
# Lemmas on the parameters of the benchmark
-/

namespace Quad.Bench
open Quad Quad.Spec

theorem Workable.word {e : Ec} {size w k m : Nat} (h : Workable e size w k m) : 0 < w ∧ w ≤ 16 := by
  obtain ⟨_, _, _, _, h⟩ := h
  cases e <;> simp only [List.mem_cons, List.not_mem_nil, or_false] at h <;> omega

theorem wrap_small {b x : Nat} (h : x < 2 ^ b) : wrap b x = x := Nat.mod_eq_of_lt h

/-- `check_params` accepts, with chunks of whole words -/
theorem check_params_ok {e : Ec} {size k m : Nat} {p : Params} (hk : p.k = k) (hm : p.m = m) (hc : ChunksOk p)
    (h : Workable e size p.word_size k m) :
    ∃ T, 0 < T ∧ T ≤ 2 ^ 64 ∧ check_params size e p = .ok (some (T * p.word_size)) := by
  obtain ⟨hw0, hw16⟩ := Workable.word h
  have h' := h
  obtain ⟨k0, m0, hlen, hint, he⟩ := h
  have hlog : Nat.log 2 (k + m) < 8 * p.word_size := Nat.log_lt_of_lt_pow (by omega) hlen
  have hl : Arith.log2 (p.k + p.m) = .ok (Nat.log 2 (k + m)) := by
    rw [hk, hm]
    exact_mod_cast Arith.log2_eq (n := k + m) (by omega)
  have w8 : wrap 64 (8 * p.word_size) = 8 * p.word_size := wrap_small (by norm_num; omega)
  have w2 : wrap 64 (2 * p.word_size) = 2 * p.word_size := wrap_small (by norm_num; omega)
  have step : check_params size e p = (do
      let l ← Arith.log2 (p.k + p.m)
      if wrap 64 (8 * p.word_size) < l + 1 then pure none
      else if p.pkt_size = 0 then pure (some p.chunk_size)
      else
        if wrap 64 (p.pkt_size * p.word_size) = 0 then ub
        else if p.chunk_size % wrap 64 (p.pkt_size * p.word_size) = 0 then pure (some p.chunk_size)
        else pure (some (wrap 64 (((p.chunk_size - 1) / wrap 64 (p.pkt_size * p.word_size) + 1) * wrap 64 (p.pkt_size * p.word_size)))) : Res (Option Nat)) := by
    unfold check_params
    rw [if_neg (by rw [hk, hm]; push Not; constructor <;> omega), if_neg (by omega), if_neg, if_neg, if_neg, if_neg, if_neg]
    all_goals
      rw [w2] at *
      cases e <;> simp only [List.mem_cons, List.not_mem_nil, or_false, reduceCtorEq, false_and, not_false_eq_true, true_and, or_true, true_or, or_self] at he ⊢ <;> omega
  rw [step, hl, ok_bind, if_neg (by rw [w8]; omega)]
  by_cases hp : p.pkt_size = 0
  · rw [if_pos hp]
    obtain ⟨T, hT⟩ := hc.whole hp
    have h1 := hc.pos
    have h2 := hc.chunk
    refine ⟨T, ?_, ?_, by rw [hT, Nat.mul_comm]; rfl⟩
    · rcases Nat.eq_zero_or_pos T with h | h
      · rw [h] at hT; omega
      · exact h
    · have : T ≤ p.word_size * T := Nat.le_mul_of_pos_left _ hw0
      norm_num at h2 ⊢; omega
  · have hu : p.pkt_size * p.word_size ≤ 2 ^ 31 * 16 := Nat.mul_le_mul hc.pkt.le hw16
    have hu0 : 0 < p.pkt_size * p.word_size := Nat.mul_pos (by omega) hw0
    have hwu : wrap 64 (p.pkt_size * p.word_size) = p.pkt_size * p.word_size := wrap_small (by norm_num at hu ⊢; omega)
    rw [if_neg hp, hwu, if_neg (by omega)]
    have h1 := hc.pos
    have h2 := hc.chunk
    by_cases hd : p.chunk_size % (p.pkt_size * p.word_size) = 0
    · rw [if_pos hd]
      obtain ⟨q, hq⟩ := Nat.dvd_of_mod_eq_zero hd
      refine ⟨p.pkt_size * q, ?_, ?_, by rw [hq]; congr 2; ring⟩
      · rcases Nat.eq_zero_or_pos (p.pkt_size * q) with h | h
        · have : p.chunk_size = p.pkt_size * q * p.word_size := by rw [hq]; ring
          rw [h] at this; omega
        · exact h
      · have : p.pkt_size * q ≤ p.chunk_size := by
          rw [hq]
          calc p.pkt_size * q ≤ p.pkt_size * q * p.word_size := Nat.le_mul_of_pos_right _ hw0
            _ = _ := by ring
        norm_num at h2 ⊢; omega
    · rw [if_neg hd]
      set u := p.pkt_size * p.word_size with hu'
      have hq : (p.chunk_size - 1) / u * u ≤ p.chunk_size - 1 := Nat.div_mul_le_self _ _
      have hlt : ((p.chunk_size - 1) / u + 1) * u < 2 ^ 64 := by
        rw [Nat.add_mul]; norm_num at h2 hu ⊢; omega
      rw [wrap_small hlt]
      refine ⟨((p.chunk_size - 1) / u + 1) * p.pkt_size, Nat.mul_pos (Nat.succ_pos _) (by omega), ?_, by rw [hu']; congr 2; ring⟩
      calc ((p.chunk_size - 1) / u + 1) * p.pkt_size ≤ ((p.chunk_size - 1) / u + 1) * u :=
            Nat.mul_le_mul_left _ (by rw [hu']; exact Nat.le_mul_of_pos_right _ hw0)
        _ ≤ _ := hlt.le

theorem room_init (env : Env) (x : Driver.Object) (size : Nat) : Room x.1.n_data x.1.n_outputs size (init env x size) := by
  have key : ∀ kind n, (env.chunks kind n size).length = n ∧ ∀ b ∈ env.chunks kind n size, b.size = size := by
    intro kind n
    refine ⟨by simp [Env.chunks], fun b hb => ?_⟩
    simp only [Env.chunks, List.mem_map] at hb
    obtain ⟨i, _, rfl⟩ := hb
    simp
  exact ⟨key _ _, key _ _, key _ _, by simp [init]⟩

/-- the scenarios end well, also without samples -/
theorem scenario_ok {env : Env} {p : Params} {sys : Bool} {x : Driver.Object} {m size k : Nat} (hk : x.1.n_data = k)
    (h : Passes x.1 sys m size x.2) (hs : ∀ i, i < p.samples_nb → Shuffles sys k (k + m) (env.shuffles i)) :
    scenario env p sys x size = .ok true := by
  have hr := room_init env x size
  subst hk
  have hl : ∀ l ∈ (List.range p.samples_nb).map env.shuffles, Shuffles sys x.1.n_data (x.1.n_data + m) l := by
    intro l hl
    simp only [List.mem_map, List.mem_range] at hl
    obtain ⟨i, hi, rfl⟩ := hl
    exact hs i hi
  have hne : p.samples_nb ≠ 0 → (List.range p.samples_nb).map env.shuffles ≠ [] := by
    intro h0 h
    simp [h0] at h
  unfold scenario
  cases hsc : p.sce_type with
  | encOnly =>
    obtain ⟨st, e, _⟩ := h.encOnly (init env x size) rfl hr p.samples_nb
    simp only [e]; rfl
  | decOnly =>
    by_cases h0 : p.samples_nb = 0
    · obtain ⟨st, e, _⟩ := h.encOnly (init env x size) rfl hr 1
      simp only [h0, List.range_zero, List.map_nil]
      unfold enc_only at e
      unfold dec_only
      cases hg : gen_data x.1 size (init env x size) with
      | error y => rw [hg] at e; cases e
      | ok st1 =>
        rw [hg, ok_bind] at e
        rw [ok_bind]
        simp only [encLoop] at e
        cases he : encode x.1 st1 with
        | error y => rw [he] at e; cases e
        | ok st2 => rfl
    · obtain ⟨st, e, _⟩ := h.decOnly (init env x size) rfl hr _ (hne h0) hl
      simp only [e]; rfl
  | encDec =>
    by_cases h0 : p.samples_nb = 0
    · obtain ⟨st, e, _⟩ := h.encOnly (init env x size) rfl hr 0
      simp only [h0, List.range_zero, List.map_nil]
      unfold enc_only at e
      unfold enc_dec
      cases hg : gen_data x.1 size (init env x size) with
      | error y => rw [hg] at e; cases e
      | ok st1 => rfl
    · obtain ⟨st, e, _⟩ := h.encDec (init env x size) rfl hr _ (hne h0) hl
      simp only [e]; rfl

/-- the type used -/
theorem get_sizeof_T_spec {e : Ec} {p : Params} {size : Nat} (hw : 0 < p.word_size) (h16 : p.word_size ≤ 16) (h : UsesType e p size) :
    get_sizeof_T e p = { p with sizeof_T := size } := by
  obtain ⟨hs, h⟩ := h
  simp only [List.mem_cons, List.not_mem_nil, or_false] at hs
  unfold get_sizeof_T
  rcases h with h | ⟨h, hd⟩
  · rw [if_neg (by rw [h]; omega)]
    cases p; simp only at h; rw [← h]
  · rw [if_pos h]
    have h1 : wrap 64 (2 ^ 64 - 1 + p.word_size) = p.word_size - 1 := by unfold wrap; omega
    have key : Driver.toInt (wrap 32 (if e = .nf4 then wrap 64 ((wrap 64 (2 ^ 64 - 1 + p.word_size) / 2 + 1) * 4)
        else if e = .gfpFft ∧ p.word_size = 4 then 8
        else wrap 64 ((wrap 64 (2 ^ 64 - 1 + p.word_size) / 4 + 1) * 4))) = (size : Int) := by
      rw [h1, hd, defaultType]
      have a1 : wrap 64 (((p.word_size - 1) / 2 + 1) * 4) = 4 * ((p.word_size + 1) / 2) := by unfold wrap; omega
      have a2 : wrap 64 (((p.word_size - 1) / 4 + 1) * 4) = 4 * ((p.word_size + 3) / 4) := by unfold wrap; omega
      rw [a1, a2]
      unfold Driver.toInt wrap
      repeat' split
      all_goals push_cast <;> omega
    simp only [key]

/-! ## Options -/

theorem lastOf_cons (c : Char) (a : Char × List Char) (l : List (Char × List Char)) :
    lastOf c (a :: l) = if a.1 = c then some ((lastOf c l).getD a.2) else lastOf c l := by
  unfold lastOf
  by_cases h : a.1 = c
  · rw [if_pos h, List.filter_cons_of_pos (by simpa using h), List.getLast?_cons]
    simp only [Option.map_some]
    cases (List.filter (fun a => a.1 == c) l).getLast? <;> rfl
  · rw [if_neg h, List.filter_cons_of_neg (by simpa using h)]

/-- what an option does -/
inductive Effect (p : Params) : Char → List Char → Params → Prop
  | t' {s v} : Driver.stoi s = .ok v → Effect p 't' s { p with sizeof_T := v }
  | w' {s v} : Driver.stoi s = .ok v → Effect p 'w' s { p with word_size := toSize v }
  | k' {s v} : Driver.stoi s = .ok v → Effect p 'k' s { p with k := v }
  | m' {s v} : Driver.stoi s = .ok v → Effect p 'm' s { p with m := v }
  | c' {s v} : Driver.stoi s = .ok v → Effect p 'c' s { p with chunk_size := toSize v }
  | p' {s v} : Driver.stoi s = .ok v → Effect p 'p' s { p with pkt_size := toSize v }
  | n' {s v} : Driver.stoi s = .ok v → Effect p 'n' s { p with samples_nb := Driver.toUnsigned v }
  | x' {s v} : Driver.stoi s = .ok v → Effect p 'x' s p
  | g' {s v} : Driver.stoi s = .ok v → Effect p 'g' s { p with threads_nb := Driver.toUnsigned v }
  | f' {s v} : Driver.stoi s = .ok v → Effect p 'f' s { p with compact_print := v }
  | e' {s v} : named benchCodes s = some v → Effect p 'e' s { p with fec_type := v }
  | s' {s v} : named benchScenarios s = some v → Effect p 's' s { p with sce_type := v }

theorem named_cons {α : Type} (n : String) (a : α) (l : List (String × α)) (s : List Char) :
    named ((n, a) :: l) s = if s = n.toList then some a else named l s := by
  unfold named
  by_cases h : s = n.toList
  · rw [if_pos h, List.find?_cons_of_pos (by simpa using h.symm)]; rfl
  · rw [if_neg h, List.find?_cons_of_neg (by simpa using fun e => h e.symm)]

theorem codeName_eq (s : List Char) : codeName s = named benchCodes s := by
  unfold codeName benchCodes
  simp only [named_cons]
  rfl

theorem sceName_eq (s : List Char) : sceName s = named benchScenarios s := by
  unfold sceName benchScenarios
  simp only [named_cons]
  rfl

theorem effect {p p' : Params} {c : Char} {s : List Char} (h : option p c s = .ok p') : Effect p c s p' := by
  unfold option at h
  simp only [codeName_eq, sceName_eq] at h
  by_cases ht : c = 't'
  · rw [if_pos ht] at h
    subst ht
    split at h
    · rename_i v hv
      injection h with h
      subst h
      exact .t' hv
    · cases h
  rw [if_neg ht] at h
  by_cases he : c = 'e'
  · rw [if_pos he] at h
    subst he
    split at h
    · rename_i v hv
      injection h with h
      subst h
      exact .e' hv
    · cases h
  rw [if_neg he] at h
  by_cases hs : c = 's'
  · rw [if_pos hs] at h
    subst hs
    split at h
    · rename_i v hv
      injection h with h
      subst h
      exact .s' hv
    · cases h
  rw [if_neg hs] at h
  by_cases hw : c = 'w'
  · rw [if_pos hw] at h
    subst hw
    split at h
    · rename_i v hv
      injection h with h
      subst h
      exact .w' hv
    · cases h
  rw [if_neg hw] at h
  by_cases hk : c = 'k'
  · rw [if_pos hk] at h
    subst hk
    split at h
    · rename_i v hv
      injection h with h
      subst h
      exact .k' hv
    · cases h
  rw [if_neg hk] at h
  by_cases hm : c = 'm'
  · rw [if_pos hm] at h
    subst hm
    split at h
    · rename_i v hv
      injection h with h
      subst h
      exact .m' hv
    · cases h
  rw [if_neg hm] at h
  by_cases hc : c = 'c'
  · rw [if_pos hc] at h
    subst hc
    split at h
    · rename_i v hv
      injection h with h
      subst h
      exact .c' hv
    · cases h
  rw [if_neg hc] at h
  by_cases hp : c = 'p'
  · rw [if_pos hp] at h
    subst hp
    split at h
    · rename_i v hv
      injection h with h
      subst h
      exact .p' hv
    · cases h
  rw [if_neg hp] at h
  by_cases hn : c = 'n'
  · rw [if_pos hn] at h
    subst hn
    split at h
    · rename_i v hv
      injection h with h
      subst h
      exact .n' hv
    · cases h
  rw [if_neg hn] at h
  by_cases hx : c = 'x'
  · rw [if_pos hx] at h
    subst hx
    split at h
    · rename_i v hv
      injection h with h
      subst h
      exact .x' hv
    · cases h
  rw [if_neg hx] at h
  by_cases hg : c = 'g'
  · rw [if_pos hg] at h
    subst hg
    split at h
    · rename_i v hv
      injection h with h
      subst h
      exact .g' hv
    · cases h
  rw [if_neg hg] at h
  by_cases hf : c = 'f'
  · rw [if_pos hf] at h
    subst hf
    split at h
    · rename_i v hv
      injection h with h
      subst h
      exact .f' hv
    · cases h
  rw [if_neg hf] at h
  cases h

/-- a member that only the options with the letter `c` set -/
theorem options_last {α : Type} (π : Params → α) (c : Char) (f : List Char → α)
    (h : ∀ p d s p', Effect p d s p' → π p' = if d = c then f s else π p) :
    ∀ {args : List (Char × List Char)} {p0 p : Params}, options args p0 = .ok p → π p = (lastOf c args).elim (π p0) f
  | [], p0, p, e => by cases e; rfl
  | a :: l, p0, p, e => by
    unfold options at e
    split at e
    · rename_i p1 e1
      have ih := options_last π c f h e
      rw [ih, lastOf_cons, h _ _ _ _ (effect e1)]
      by_cases hc : a.1 = c
      · rw [if_pos hc, if_pos hc]
        cases lastOf c l <;> rfl
      · rw [if_neg hc, if_neg hc]
    · cases e

theorem option_valid (a : Char × List Char) (p : Params) : (∃ p', option p a.1 a.2 = .ok p') ↔ ValidOption a := by
  obtain ⟨c, s⟩ := a
  constructor
  · rintro ⟨p', h⟩
    replace h : Effect p c s p' := effect h
    unfold ValidOption
    cases h <;> rename_i hv
    all_goals first | exact .inr (.inl ⟨rfl, _, hv⟩) | exact .inr (.inr ⟨rfl, _, hv⟩) | exact .inl ⟨by simp, _, hv⟩
  · rintro (⟨h, v, hv⟩ | ⟨h, v, hv⟩ | ⟨h, v, hv⟩)
    · simp only [List.mem_cons, List.not_mem_nil, or_false] at h
      rcases h with h | h | h | h | h | h | h | h | h | h <;> simp only at h hv <;> subst h <;> exact ⟨_, by unfold option; simp only [hv]; rfl⟩
    · simp only at h hv; subst h; exact ⟨_, by unfold option; simp only [codeName_eq, sceName_eq, hv]; rfl⟩
    · simp only at h hv; subst h; exact ⟨_, by unfold option; simp only [codeName_eq, sceName_eq, hv]; rfl⟩

theorem options_valid : ∀ {args : List (Char × List Char)} {p0 : Params}, (∃ p, options args p0 = .ok p) ↔ ∀ a ∈ args, ValidOption a
  | [], p0 => by simp [options]
  | a :: l, p0 => by
    constructor
    · rintro ⟨p, h⟩ b hb
      unfold options at h
      split at h
      · rename_i p1 e1
        rcases List.mem_cons.1 hb with rfl | hb
        · exact (option_valid _ _).1 ⟨p1, e1⟩
        · exact options_valid.1 ⟨p, h⟩ b hb
      · cases h
    · intro h
      obtain ⟨p1, e1⟩ := (option_valid a p0).2 (h a (by simp))
      unfold options
      rw [e1]
      exact options_valid.2 (fun b hb => h b (by simp [hb]))

/-- a number set by the options with the letter `c` -/
theorem option_num {α : Type} (π : Params → α) (g : Int → α) (c : Char) (d : Int)
    (h : ∀ p d' s p', Effect p d' s p' → π p' = if d' = c then g (match Driver.stoi s with | .ok v => v | .error _ => d) else π p)
    {args : List (Char × List Char)} {p : Params} (h0 : π {} = g d) (e : options args {} = .ok p) : π p = g (numberOf c d args) := by
  rw [options_last π c (fun s => g (match Driver.stoi s with | .ok v => v | .error _ => d)) h e]
  unfold numberOf
  cases lastOf c args with
  | none => exact h0
  | some s => rfl

theorem options_asked {args : List (Char × List Char)} {p : Params} (e : options args {} = .ok p) : p = askedFor args := by
  have f1 : p.word_size = (numberOf 'w' 2 args % 2 ^ 64).toNat := by
    refine option_num Params.word_size toSize 'w' 2 (fun p d' s p' h => ?_) rfl e
    cases h <;> first | rfl | (rename_i h; rw [h]; rfl)
  have f2 : p.k = numberOf 'k' 3 args := by
    refine option_num Params.k id 'k' 3 (fun p d' s p' h => ?_) rfl e
    cases h <;> first | rfl | (rename_i h; rw [h]; rfl)
  have f3 : p.m = numberOf 'm' 2 args := by
    refine option_num Params.m id 'm' 2 (fun p d' s p' h => ?_) rfl e
    cases h <;> first | rfl | (rename_i h; rw [h]; rfl)
  have f4 : p.pkt_size = (numberOf 'p' 1024 args % 2 ^ 64).toNat := by
    refine option_num Params.pkt_size toSize 'p' 1024 (fun p d' s p' h => ?_) rfl e
    cases h <;> first | rfl | (rename_i h; rw [h]; rfl)
  have f5 : p.chunk_size = (numberOf 'c' 512 args % 2 ^ 64).toNat := by
    refine option_num Params.chunk_size toSize 'c' 512 (fun p d' s p' h => ?_) rfl e
    cases h <;> first | rfl | (rename_i h; rw [h]; rfl)
  have f6 : p.samples_nb = (numberOf 'n' 100 args % 2 ^ 32).toNat := by
    refine option_num Params.samples_nb Driver.toUnsigned 'n' 100 (fun p d' s p' h => ?_) rfl e
    cases h <;> first | rfl | (rename_i h; rw [h]; rfl)
  have f7 : p.sizeof_T = numberOf 't' (-1) args := by
    refine option_num Params.sizeof_T id 't' (-1) (fun p d' s p' h => ?_) rfl e
    cases h <;> first | rfl | (rename_i h; rw [h]; rfl)
  have f8 : p.threads_nb = (numberOf 'g' 4 args % 2 ^ 32).toNat := by
    refine option_num Params.threads_nb Driver.toUnsigned 'g' 4 (fun p d' s p' h => ?_) rfl e
    cases h <;> first | rfl | (rename_i h; rw [h]; rfl)
  have f9 : p.compact_print = numberOf 'f' 1 args := by
    refine option_num Params.compact_print id 'f' 1 (fun p d' s p' h => ?_) rfl e
    cases h <;> first | rfl | (rename_i h; rw [h]; rfl)
  have f10 : p.operation_on_packet = true := by
    have := options_last Params.operation_on_packet ' ' (fun _ => true) (fun p d' s p' h => by cases h <;> rfl) e
    rw [this]
    cases lastOf ' ' args <;> rfl
  have f11 : p.fec_type = ((lastOf 'e' args).bind (named benchCodes)).join := by
    have := options_last Params.fec_type 'e' (fun s => (named benchCodes s).join) (fun p d' s p' h => by
      cases h <;> first | rfl | (rename_i h; rw [h]; rfl)) e
    rw [this]
    cases lastOf 'e' args <;> rfl
  have f12 : p.sce_type = ((lastOf 's' args).bind (named benchScenarios)).getD .encDec := by
    have := options_last Params.sce_type 's' (fun s => (named benchScenarios s).getD .encDec) (fun p d' s p' h => by
      cases h <;> first | rfl | (rename_i h; rw [h]; rfl)) e
    rw [this]
    cases lastOf 's' args <;> rfl
  cases p
  simp only at f1 f2 f3 f4 f5 f6 f7 f8 f9 f10 f11 f12
  subst f1 f2 f3 f4 f5 f6 f7 f8 f9 f10 f11 f12
  rfl

theorem lastOf_append (c : Char) (l : List (Char × List Char)) (a : Char × List Char) :
    lastOf c (l ++ [a]) = if a.1 = c then some a.2 else lastOf c l := by
  unfold lastOf
  by_cases h : a.1 = c
  · rw [if_pos h, List.filter_append, List.filter_cons_of_pos (by simpa using h)]
    simp
  · rw [if_neg h, List.filter_append, List.filter_cons_of_neg (by simpa using h)]
    simp

theorem askedFor_code (l : List (Char × List Char)) (s : List Char) :
    askedFor (l ++ [('e', s)]) = { askedFor l with fec_type := (named benchCodes s).join } := by
  simp [askedFor, numberOf, lastOf_append]

theorem askedFor_threads (l : List (Char × List Char)) {s : List Char} {n : Nat} (hs : Driver.stoi s = .ok (n : Int)) (hn : n < 2 ^ 32) :
    askedFor (l ++ [('g', s)]) = { askedFor l with threads_nb := n } := by
  have h1 : ((n : Int) % 2 ^ 32).toNat = n := by omega
  have h2 : (numberOf 'g' 4 (l ++ [('g', s)]) % 2 ^ 32).toNat = n := by
    simp only [numberOf, lastOf_append, if_true, hs]
    exact h1
  simp only [askedFor, h2]
  simp [numberOf, lastOf_append]

end Quad.Bench
