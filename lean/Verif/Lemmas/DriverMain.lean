import Verif.Spec.DriverMain
import Verif.Lemmas.Driver
import Verif.Lemmas.Property
import Verif.Lemmas.Buffers

/-!
# Lemmas for the command line (C56)
-/

namespace Quad.Driver
open Quad Spec

/-! ## Numbers -/

theorem stoi_digits (n : Nat) : stoi (Properties.decStr n) = if 2 ^ 31 ≤ n then .error (.throws .logicError) else .ok (n : Int) := by
  have hd := Properties.decStr_digits n
  have hs : Properties.splitSign (Properties.decStr n) = (false, Properties.decStr n) := by
    cases e : Properties.decStr n with
    | nil => exact absurd e (Properties.decStr_ne_nil n)
    | cons c t =>
      have := Properties.isDigit_spec (hd c (by rw [e]; simp))
      unfold Properties.splitSign
      simp only [this]
      rfl
  have ht := (Properties.takeWhile_all (r := []) hd (by simp)).1
  rw [List.append_nil] at ht
  unfold stoi
  simp only
  rw [Properties.dropWhile_ne (fun c hc => (Properties.isDigit_spec (hd c hc)).2.1), hs]
  simp only [ht, Properties.decVal_decStr]
  rw [if_neg (by simp [Properties.decStr_ne_nil])]
  simp only [Bool.false_eq_true, if_false]
  by_cases h : 2 ^ 31 ≤ n
  · rw [if_pos h, if_pos (by omega)]
  · rw [if_neg h, if_neg (by omega)]

theorem stoi_decStr {n : Nat} (h : n < 2 ^ 31) : stoi (Properties.decStr n) = .ok (n : Int) := by
  rw [stoi_digits, if_neg (by omega)]

theorem stoi_none {s : List Char} (h : ∀ c ∈ s, Properties.isDigit c = false) : stoi s = .error (.throws .logicError) := by
  have h1 : ∀ c ∈ s.dropWhile Properties.isSpace, Properties.isDigit c = false := fun c hc => h c ((List.dropWhile_sublist _).subset hc)
  have h2 : ∀ c ∈ (Properties.splitSign (s.dropWhile Properties.isSpace)).2, Properties.isDigit c = false := by
    intro c hc
    apply h1
    generalize s.dropWhile Properties.isSpace = t at hc
    unfold Properties.splitSign at hc
    split at hc
    · simp at hc
    · split at hc
      · exact List.mem_cons_of_mem _ hc
      · split at hc
        · exact List.mem_cons_of_mem _ hc
        · exact hc
  unfold stoi
  simp only
  rw [if_pos]
  cases e : (Properties.splitSign (s.dropWhile Properties.isSpace)).2 with
  | nil => rfl
  | cons c t =>
    rw [List.takeWhile_cons_of_neg (by rw [h2 c (by rw [e]; simp)]; simp)]
    rfl

theorem toUnsigned_nat {n : Nat} (h : n < 2 ^ 31) : toUnsigned (n : Int) = n := by
  unfold toUnsigned
  rw [Int.emod_eq_of_lt (by omega) (by omega)]
  rfl

theorem toInt_nat {n : Nat} (h : n < 2 ^ 31) : toInt n = n := by
  unfold toInt
  rw [if_pos h]

/-! ## The loop over the options -/

theorem option_error {o : Opts} {c : Char} {arg : List Char} {x : Exit} (h : option o c arg = .error x) : x ≠ .status 0 := by
  unfold option at h
  simp only at h
  repeat' split at h
  all_goals first | cases h | skip
  all_goals simp

theorem options_error : ∀ {args : List (Char × List Char)} {o : Opts} {x : Exit}, options args o = .error x → x ≠ .status 0
  | [], _, _, h => by cases h
  | a :: l, o, x, h => by
    unfold options at h
    split at h
    · exact options_error h
    · rename_i e
      injection h with h
      rw [← h]
      exact option_error e

/-- an option that cannot be read ends the program -/
theorem options_bad {args : List (Char × List Char)} {a : Char × List Char} (ha : a ∈ args)
    (h : ∀ o, ∃ x, option o a.1 a.2 = .error x) : ∀ o, ∃ x, options args o = .error x := by
  induction args with
  | nil => simp at ha
  | cons b l ih =>
    intro o
    unfold options
    rcases List.mem_cons.1 ha with rfl | ha
    · obtain ⟨x, e⟩ := h o
      rw [e]; exact ⟨x, rfl⟩
    · split
      · exact ih ha _
      · exact ⟨_, rfl⟩

theorem options_good {args : List (Char × List Char)} (h : ∀ a ∈ args, ∀ o, ∃ o', option o a.1 a.2 = .ok o') :
    ∀ o, ∃ o', options args o = .ok o' := by
  induction args with
  | nil => exact fun o => ⟨o, rfl⟩
  | cons b l ih =>
    intro o
    unfold options
    obtain ⟨o', e⟩ := h b (by simp) o
    rw [e]
    exact ih (fun a ha => h a (by simp [ha])) o'

/-- what no option changes stays -/
theorem options_keep {α : Type} (π : Opts → α) {args : List (Char × List Char)}
    (h : ∀ a ∈ args, ∀ o o', option o a.1 a.2 = .ok o' → π o' = π o) : ∀ {o o'}, options args o = .ok o' → π o' = π o := by
  induction args with
  | nil => intro o o' e; cases e; rfl
  | cons b l ih =>
    intro o o' e
    unfold options at e
    split at e
    · rename_i o1 e1
      rw [ih (fun a ha => h a (by simp [ha])) e, h b (by simp) _ _ e1]
    · cases e

/-- the options set a value, or leave it -/
theorem options_or {α : Type} (π : Opts → α) (P : α → Prop) {args : List (Char × List Char)}
    (h : ∀ a ∈ args, ∀ o o', option o a.1 a.2 = .ok o' → π o' = π o ∨ P (π o')) : ∀ {o o'}, options args o = .ok o' → π o' = π o ∨ P (π o') := by
  induction args with
  | nil => intro o o' e; cases e; exact .inl rfl
  | cons b l ih =>
    intro o o' e
    unfold options at e
    split at e
    · rename_i o1 e1
      rcases ih (fun a ha => h a (by simp [ha])) e with h1 | h1
      · rcases h b (by simp) _ _ e1 with h2 | h2
        · exact .inl (h1.trans h2)
        · exact .inr (by rw [h1]; exact h2)
      · exact .inr h1
    · cases e

/-- a value all options that set it agree on -/
theorem options_set {α : Type} (π : Opts → α) (v : α) {args : List (Char × List Char)}
    (h : ∀ a ∈ args, ∀ o o', option o a.1 a.2 = .ok o' → π o' = π o ∨ π o' = v)
    (hx : ∃ a ∈ args, ∀ o o', option o a.1 a.2 = .ok o' → π o' = v) : ∀ {o o'}, options args o = .ok o' → π o' = v := by
  induction args with
  | nil => obtain ⟨a, ha, _⟩ := hx; simp at ha
  | cons b l ih =>
    intro o o' e
    unfold options at e
    split at e
    · rename_i o1 e1
      obtain ⟨a, ha, hv⟩ := hx
      rcases List.mem_cons.1 ha with rfl | ha
      · rcases options_or π (· = v) (fun a ha => h a (by simp [ha])) e with h1 | h1
        · rw [h1]; exact hv _ _ e1
        · exact h1
      · exact ih (fun a ha => h a (by simp [ha])) ⟨a, ha, hv⟩ e
    · cases e

/-! ## One option -/

section
variable {o o' : Opts} {arg : List Char}

theorem option_e : option o 'e' arg = (match codeName arg with
    | some (e, t) => .ok { o with eflag := some e, mflag := t.getD o.mflag }
    | none => .error (.status 1)) := rfl
theorem option_w : option o 'w' arg = (match stoi arg with
    | .ok v => .ok { o with word_size := toUnsigned v } | .error e => .error (.raised e)) := rfl
theorem option_n : option o 'n' arg = (match stoi arg with
    | .ok v => .ok { o with n_data := v } | .error e => .error (.raised e)) := rfl
theorem option_m : option o 'm' arg = (match stoi arg with
    | .ok v => .ok { o with n_parities := v } | .error e => .error (.raised e)) := rfl
theorem option_v : option o 'v' arg = .ok o := rfl
theorem option_u : option o 'u' arg = .ok { o with uflag := true } := rfl
theorem option_c : option o 'c' arg = .ok { o with cflag := true } := rfl
theorem option_r : option o 'r' arg = .ok { o with rflag := true } := rfl
theorem option_p : option o 'p' arg = .ok { o with pfx := some arg } := rfl
theorem option_t : option o 't' arg = .ok { o with tflag := true } := rfl

end

/-- which variables an option may change -/
theorem option_inv {o o' : Opts} {c : Char} {arg : List Char} (h : option o c arg = .ok o') :
    (c ≠ 'e' → o'.eflag = o.eflag ∧ o'.mflag = o.mflag) ∧ (c ≠ 'w' → o'.word_size = o.word_size) ∧ (c ≠ 'n' → o'.n_data = o.n_data) ∧
    (c ≠ 'm' → o'.n_parities = o.n_parities) ∧ (c ≠ 'p' → o'.pfx = o.pfx) ∧ (c ≠ 'c' → o'.cflag = o.cflag) ∧
    (c ≠ 'u' → o'.uflag = o.uflag) ∧ (c ≠ 'r' → o'.rflag = o.rflag) ∧ (c ≠ 't' → o'.tflag = o.tflag) ∧
    (c = 'p' → o'.pfx = some arg) ∧ c ∈ ['e', 'w', 'n', 'm', 'p', 'c', 'u', 'r', 'v', 't'] := by
  unfold option at h
  simp only at h
  repeat' split at h
  all_goals first | cases h | skip
  all_goals subst_vars
  all_goals simp_all

/-! ## A command line that asks for something -/

theorem Asks.options {args : List (Char × List Char)} {code : String} {w k m : Nat} {pfx : List Char} {r : Bool} {e : Ec}
    {t : Option RsGf2n.MatType} (h : Asks args code w k m pfx r) (hw : w < 2 ^ 31) (hk : k < 2 ^ 31) (hm : m < 2 ^ 31)
    (hc : codeName code.toList = some (e, t)) :
    ∃ o : Opts, options args {} = .ok o ∧ o.eflag = some e ∧ o.mflag = t.getD .vandermonde ∧ o.word_size = w ∧ o.n_data = k ∧
      o.n_parities = m ∧ o.pfx = some pfx ∧ (o.uflag || o.cflag || o.rflag) = true ∧ o.rflag = r ∧ o.tflag = false := by
  obtain ⟨o, ho⟩ := options_good (args := args) (fun a ha o => by
    obtain ⟨c, x⟩ := a
    have hl := h.letters _ ha
    simp only [List.mem_cons, List.not_mem_nil, or_false] at hl
    rcases hl with rfl | rfl | rfl | rfl | rfl | rfl | rfl | rfl | rfl
    · rw [h.e.2 x ha]; exact ⟨_, by rw [option_e, hc]⟩
    · rw [h.w.2 x ha]; exact ⟨_, by rw [option_w, stoi_decStr hw]⟩
    · rw [h.n.2 x ha]; exact ⟨_, by rw [option_n, stoi_decStr hk]⟩
    · rw [h.m.2 x ha]; exact ⟨_, by rw [option_m, stoi_decStr hm]⟩
    · exact ⟨_, option_p⟩
    · exact ⟨_, option_c⟩
    · exact ⟨_, option_u⟩
    · exact ⟨_, option_r⟩
    · exact ⟨_, option_v⟩) {}
  refine ⟨o, ho, ?_, ?_, ?_, ?_, ?_, ?_, ?_, ?_, ?_⟩
  · refine options_set (·.eflag) (some e) (fun a ha o o' q => ?_) ⟨_, h.e.1, fun o o' q => ?_⟩ ho
    · by_cases h1 : a.1 = 'e'
      · right
        obtain ⟨c, x⟩ := a
        subst h1
        rw [h.e.2 x ha, option_e, hc] at q
        cases q; rfl
      · exact .inl ((option_inv q).1 h1).1
    · rw [option_e, hc] at q; cases q; rfl
  · cases t with
    | none =>
      refine options_keep (·.mflag) (fun a ha o o' q => ?_) ho
      by_cases h1 : a.1 = 'e'
      · obtain ⟨c, x⟩ := a
        subst h1
        rw [h.e.2 x ha, option_e, hc] at q
        cases q; rfl
      · exact ((option_inv q).1 h1).2
    | some t =>
      refine options_set (·.mflag) t (fun a ha o o' q => ?_) ⟨_, h.e.1, fun o o' q => ?_⟩ ho
      · by_cases h1 : a.1 = 'e'
        · right
          obtain ⟨c, x⟩ := a
          subst h1
          rw [h.e.2 x ha, option_e, hc] at q
          cases q; rfl
        · exact .inl ((option_inv q).1 h1).2
      · rw [option_e, hc] at q; cases q; rfl
  · refine options_set (·.word_size) w (fun a ha o o' q => ?_) ⟨_, h.w.1, fun o o' q => ?_⟩ ho
    · by_cases h1 : a.1 = 'w'
      · right
        obtain ⟨c, x⟩ := a
        subst h1
        rw [h.w.2 x ha, option_w, stoi_decStr hw] at q
        cases q; exact toUnsigned_nat hw
      · exact .inl ((option_inv q).2.1 h1)
    · rw [option_w, stoi_decStr hw] at q; cases q; exact toUnsigned_nat hw
  · refine options_set (·.n_data) (k : Int) (fun a ha o o' q => ?_) ⟨_, h.n.1, fun o o' q => ?_⟩ ho
    · by_cases h1 : a.1 = 'n'
      · right
        obtain ⟨c, x⟩ := a
        subst h1
        rw [h.n.2 x ha, option_n, stoi_decStr hk] at q
        cases q; rfl
      · exact .inl ((option_inv q).2.2.1 h1)
    · rw [option_n, stoi_decStr hk] at q; cases q; rfl
  · refine options_set (·.n_parities) (m : Int) (fun a ha o o' q => ?_) ⟨_, h.m.1, fun o o' q => ?_⟩ ho
    · by_cases h1 : a.1 = 'm'
      · right
        obtain ⟨c, x⟩ := a
        subst h1
        rw [h.m.2 x ha, option_m, stoi_decStr hm] at q
        cases q; rfl
      · exact .inl ((option_inv q).2.2.2.1 h1)
    · rw [option_m, stoi_decStr hm] at q; cases q; rfl
  · refine options_set (·.pfx) (some pfx) (fun a ha o o' q => ?_) ⟨_, h.p.1, fun o o' q => ?_⟩ ho
    · by_cases h1 : a.1 = 'p'
      · right
        obtain ⟨c, x⟩ := a
        subst h1
        rw [h.p.2 x ha, option_p] at q
        cases q; rfl
      · exact .inl ((option_inv q).2.2.2.2.1 h1)
    · rw [option_p] at q; cases q; rfl
  · have keep : ∀ a ∈ args, ∀ o o', option o a.1 a.2 = .ok o' → (o'.uflag || o'.cflag || o'.rflag) = (o.uflag || o.cflag || o.rflag) ∨
        (o'.uflag || o'.cflag || o'.rflag) = true := by
      intro a _ o o' q
      obtain ⟨c, x⟩ := a
      have hq := option_inv q
      by_cases hcu : c = 'u'
      · subst hcu; rw [option_u] at q; cases q; right; simp
      by_cases hcc : c = 'c'
      · subst hcc; rw [option_c] at q; cases q; right; simp
      by_cases hcr : c = 'r'
      · subst hcr; rw [option_r] at q; cases q; right; simp
      left
      rw [hq.2.2.2.2.2.1 hcc, hq.2.2.2.2.2.2.1 hcu, hq.2.2.2.2.2.2.2.1 hcr]
    obtain ⟨a, ha, hl⟩ := h.mode
    refine options_set (fun o => o.uflag || o.cflag || o.rflag) true keep ⟨a, ha, fun o o' q => ?_⟩ ho
    obtain ⟨c, x⟩ := a
    simp only [List.mem_cons, List.not_mem_nil, or_false] at hl
    rcases hl with rfl | rfl | rfl
    · rw [option_c] at q; cases q; simp
    · rw [option_u] at q; cases q; simp
    · rw [option_r] at q; cases q; simp
  · cases r with
    | false =>
      refine options_keep (·.rflag) (fun a ha o o' q => (option_inv q).2.2.2.2.2.2.2.1 (fun e => ?_)) ho
      have := h.r.2 ⟨a, ha, e⟩
      cases this
    | true =>
      obtain ⟨a, ha, hr⟩ := h.r.1 rfl
      refine options_set (·.rflag) true (fun a ha o o' q => ?_) ⟨a, ha, fun o o' q => ?_⟩ ho
      · by_cases h1 : a.1 = 'r'
        · right
          obtain ⟨c, x⟩ := a
          subst h1
          rw [option_r] at q; cases q; rfl
        · exact .inl ((option_inv q).2.2.2.2.2.2.2.1 h1)
      · obtain ⟨c, x⟩ := a
        subst hr
        rw [option_r] at q; cases q; rfl
  · refine options_keep (·.tflag) (fun a ha o o' q => (option_inv q).2.2.2.2.2.2.2.2.1 (fun e => ?_)) ho
    have := h.letters a ha
    rw [e] at this
    revert this
    decide

/-- what the program does then -/
theorem main_asks {args : List (Char × List Char)} {code : String} {w k m : Nat} {pfx : List Char} {r : Bool} {e : Ec}
    {t : Option RsGf2n.MatType} (h : Asks args code w k m pfx r) (hw : w < 2 ^ 31) (hn : k + m < 2 ^ 31)
    (hc : codeName code.toList = some (e, t)) (env : Env) (fs : Fs) :
    main env args fs = (if 4 ≤ w ∨ k + m ≤ 2 ^ (8 * w) + (if e = .fnt ∨ e = .fntSys then 1 else 0) then
      match choose env e (t.getD .vandermonde) w k m with
      | .nothing => (fs, .status 0)
      | .refuse => (fs, .status 1)
      | .use (.error x) => (fs, .raised x)
      | .use (.ok x) =>
        match run x.1 (names pfx k x.1.n_outputs) r x.2 fs with
        | (fs, .done _) => (fs, .status 0)
        | (fs, .exit) => (fs, .status 1)
        | (fs, .raised e) => (fs, .raised e)
      else (fs, .status 1)) := by
  obtain ⟨o, ho, h1, h2, h3, h4, h5, h6, h7, h8, h9⟩ := Asks.options h hw (by omega) (by omega) hc
  have hck : check ((k : Int) + m) (w : Int) e = .ok (decide (4 ≤ w ∨ k + m ≤ 2 ^ (8 * w) + (if e = .fnt ∨ e = .fntSys then 1 else 0))) := by
    unfold check
    by_cases h4 : 4 ≤ w
    · rw [if_pos (by omega)]; simp [h4]
    · rw [if_neg (by omega), if_neg (by omega)]
      simp only [Int.toNat_natCast, h4, false_or]
      split
      · congr 1; rw [decide_eq_decide]; zify
      · congr 1; rw [decide_eq_decide]; zify; simp
  unfold main
  rw [ho]
  unfold dispatch
  simp only [h1, h3, h4, h5, h6, h7, toInt_nat hw, hck, h2, toUnsigned_nat (show k < 2 ^ 31 by omega), toUnsigned_nat (show m < 2 ^ 31 by omega)]
  rw [if_neg (by simp), if_neg (by omega)]
  by_cases hd : 4 ≤ w ∨ k + m ≤ 2 ^ (8 * w) + (if e = .fnt ∨ e = .fntSys then 1 else 0)
  · rw [decide_eq_true hd, if_pos hd]
    simp only
    rw [if_neg (by omega)]
    split <;> rename_i hch <;> simp only [hch] 
    unfold runObject
    rw [h9, h8]
    rfl
  · rw [decide_eq_false hd, if_neg hd]

/-! ## What a run may change -/

section
variable {F : Coder} {N : Names}

theorem repair_other {s : F.σ} {fs : Fs} {x : Name} (h : (repair_data_files F N s fs).1 x ≠ fs x) : IsData N F.n_data x ∧ fs x = none := by
  have hat := openData_at (N := N) (n := F.n_data) (fs := fs)
  have hopen : ∀ x, (openData N F.n_data fs).1 x ≠ fs x → IsData N F.n_data x ∧ fs x = none := by
    intro x hx
    by_cases hd : IsData N F.n_data x
    · refine ⟨hd, ?_⟩
      obtain ⟨i, hi, rfl⟩ := hd
      rw [(hat i hi).1] at hx
      cases e : fs (N.d i) with
      | none => rfl
      | some v => rw [e] at hx; exact absurd rfl hx
    · exact absurd (openData_other hd) hx
  unfold repair_data_files at h
  simp only at h
  split at h
  · exact hopen x h
  · split at h
    · exact hopen x h
    · by_cases hd : ∀ i, i < F.n_data → gt (openData N F.n_data fs).2 i = true → x ≠ N.d i
      · simp only at h
        rw [closeData_other hd] at h
        exact hopen x h
      · push Not at hd
        obtain ⟨i, hi, hm, rfl⟩ := hd
        refine ⟨⟨i, hi, rfl⟩, ?_⟩
        rw [(hat i hi).2, Option.isNone_iff_eq_none] at hm
        exact hm

/-- a run changes coding files, and in a repair data files that were missing -/
theorem run_other {r : Bool} {s : F.σ} {fs : Fs} {x : Name} (h : (run F N r s fs).1 x ≠ fs x) :
    IsCoding N F.n_outputs x ∨ (r = true ∧ IsData N F.n_data x ∧ fs x = none) := by
  by_cases hc : IsCoding N F.n_outputs x
  · exact .inl hc
  right
  unfold run at h
  cases r with
  | false => exact absurd (create_other hc) h
  | true =>
    refine ⟨rfl, repair_other (s := s) ?_⟩
    simp only [if_true] at h
    split at h
    · rename_i e
      rw [create_other hc] at h
      rw [e]; exact h
    · exact h

theorem closeCoding_some {n : Nat} {outs : Array (Option (List Nat))} {props : Array Properties} {fs : Fs} {x : Name}
    (h : (fs x).isSome = true) : (closeCoding N n outs props fs x).isSome = true := by
  induction n with
  | zero => exact h
  | succ n ih =>
    rw [closeCoding_succ]
    split
    · unfold put
      dsimp only
      split
      · rfl
      · split
        · rfl
        · exact ih
    · unfold put
      dsimp only
      split
      · rfl
      · exact ih

theorem create_done {s s' : F.σ} {fs fs' : Fs} (h : create_coding_files F N s fs = (fs', .done s')) :
    (∀ i, i < F.n_data → (fs' (N.d i)).isSome = true) ∧
    ∀ f, f < F.n_outputs → (fs' (N.c f)).isSome = true ∧ (fs' (N.p f)).isSome = true := by
  unfold create_coding_files at h
  split at h
  · rename_i hall
    simp only at h
    split at h
    · cases h
    · have h1 := (Prod.mk.inj h).1
      subst h1
      refine ⟨fun i hi => closeCoding_some ?_, fun f hf => ⟨closeCoding_some ?_, closeCoding_some ?_⟩⟩
      · rw [openCoding_other (fun ⟨f, _, e⟩ => e.elim Names.d_ne_c Names.d_ne_p)]
        exact List.all_eq_true.1 hall i (List.mem_range.2 hi)
      · rw [openCoding_coding ⟨f, hf, .inl rfl⟩]; rfl
      · rw [openCoding_coding ⟨f, hf, .inr rfl⟩]; rfl
  · cases h

theorem run_done {r : Bool} {s s' : F.σ} {fs fs' : Fs} (h : run F N r s fs = (fs', .done s')) :
    (∀ i, i < F.n_data → (fs' (N.d i)).isSome = true) ∧
    ∀ f, f < F.n_outputs → (fs' (N.c f)).isSome = true ∧ (fs' (N.p f)).isSome = true := by
  unfold run at h
  split at h
  · split at h
    · exact create_done h
    · rename_i hne
      exact absurd h (hne _ _)
  · exact create_done h

end

/-! ## The numbers of fragments of the objects -/

/-- number of output fragments of a code -/
def outputs (e : Ec) (k m : Nat) : Nat := if e = .gf2n ∨ e = .fntSys then m else k + m

theorem map_ok {α : Type} {β : Type _} {r : Res α} {f : α → β} {x : β} (h : Except.map f r = .ok x) : ∃ a, r = .ok a ∧ x = f a := by
  cases r with
  | error e => cases h
  | ok a => exact ⟨a, rfl, (Except.ok.inj h).symm⟩

theorem newGf2n_counts {env : Env} {t : RsGf2n.MatType} {b w k m : Nat} {x : Object} (h : newGf2n env t b w k m = .ok x) :
    x.1.n_data = k ∧ x.1.n_outputs = m := by
  obtain ⟨E, e, rfl⟩ := map_ok h
  unfold RsGf2n.mk' at e
  obtain ⟨_, _, e⟩ := bind_ok e
  cases e
  exact ⟨rfl, rfl⟩

theorem newGf2nFft_counts {env : Env} {b w k m : Nat} {x : Object} (h : newGf2nFft env b w k m = .ok x) :
    x.1.n_data = k ∧ x.1.n_outputs = k + m := by
  obtain ⟨E, e, rfl⟩ := map_ok h
  unfold RsGf2nFft.mkBase at e
  iterate 11 obtain ⟨_, _, e⟩ := bind_ok e
  cases e
  exact ⟨rfl, rfl⟩

theorem newGf2nFftAdd_counts {env : Env} {b w k m : Nat} {x : Object} (h : newGf2nFftAdd env b w k m = .ok x) :
    x.1.n_data = k ∧ x.1.n_outputs = k + m := by
  obtain ⟨E, e, rfl⟩ := map_ok h
  unfold RsGf2nFftAdd.mkCode at e
  iterate 7 obtain ⟨_, _, e⟩ := bind_ok e
  cases e
  exact ⟨rfl, rfl⟩

theorem newGfpFft_counts {env : Env} {b db w k m : Nat} {x : Object} (h : newGfpFft env b db w k m = .ok x) :
    x.1.n_data = k ∧ x.1.n_outputs = k + m := by
  obtain ⟨E, e, rfl⟩ := map_ok h
  obtain ⟨_, _, e⟩ := bind_ok e
  unfold RsGfpFft.mkBase at e
  iterate 14 obtain ⟨_, _, e⟩ := bind_ok e
  cases e
  exact ⟨rfl, rfl⟩

theorem newNf4_counts {env : Env} {b w k m : Nat} {x : Object} (h : newNf4 env b w k m = .ok x) :
    x.1.n_data = k ∧ x.1.n_outputs = k + m := by
  obtain ⟨E, e, rfl⟩ := map_ok h
  unfold RsNf4.mkCode at e
  iterate 13 obtain ⟨_, _, e⟩ := bind_ok e
  cases e
  exact ⟨rfl, rfl⟩

theorem newFnt_counts {env : Env} {sys : Bool} {b db w k m : Nat} {x : Object} (h : newFnt env sys b db w k m = .ok x) :
    x.1.n_data = k ∧ x.1.n_outputs = if sys then m else k + m := by
  obtain ⟨⟨H, R⟩, e, rfl⟩ := map_ok h
  unfold RsFntObj.mk' at e
  obtain ⟨B, eB, e⟩ := bind_ok e
  have hB : B.n_data = k ∧ B.n_outputs = if sys then m else k + m := by
    unfold RsFnt.mkBase at eB
    iterate 14 obtain ⟨_, _, eB⟩ := bind_ok eB
    cases eB
    exact ⟨rfl, rfl⟩
  iterate 4 obtain ⟨_, _, e⟩ := bind_ok e
  have hR : R.code.base = B := by
    split at e
    · obtain ⟨_, _, e⟩ := bind_ok e
      cases e; rfl
    · cases e; rfl
  have h1 : (R.fecV b).base = R.code.base := rfl
  refine ⟨?_, ?_⟩
  · show (R.fecV b).base.n_data = _
    rw [h1, hR]; exact hB.1
  · show (R.fecV b).base.n_outputs = _
    rw [h1, hR]; exact hB.2

theorem choose_counts {env : Env} {e : Ec} {t : RsGf2n.MatType} {w k m : Nat} {x : Object} (h : choose env e t w k m = .use (.ok x)) :
    x.1.n_data = k ∧ x.1.n_outputs = outputs e k m := by
  unfold choose at h
  repeat' split at h
  all_goals first
    | (cases h; done)
    | exact newGf2n_counts (Choice.use.inj h)
    | exact newGf2nFft_counts (Choice.use.inj h)
    | exact newGf2nFftAdd_counts (Choice.use.inj h)
    | exact newGfpFft_counts (Choice.use.inj h)
    | exact newNf4_counts (Choice.use.inj h)
    | exact newFnt_counts (Choice.use.inj h)

end Quad.Driver
