import Verif.Lemmas.DriverMain
import Verif.Props.Driver
import Verif.Props.FecVert
import Verif.Props.Params

/-!
# C56: the command line

`Driver.main env args fs` is a run of the program with the options `args` on the files `fs`: the files afterwards and how it ended.
`Asks` (Spec/DriverMain.lean) says what options ask for, `ProgramKeeps` what the runs should do then.
-/

namespace Quad.Props
open Quad Quad.Spec Quad.Driver

private def env0 : Env :=
  ⟨none, fun _ => 0, fun _ => 0, fun _ _ => 0, fun _ _ _ => 0, #[], fun _ _ => 0, fun _ _ => 0, fun _ _ _ => 0, fun _ _ _ => 0⟩

private theorem programKeeps {code : String} {e : Ec} {t : Option RsGf2n.MatType} {w k m n : Nat} {sys : Bool}
    {data back frags : Array (List Nat)} {fprops : Array Properties} (hw : w < 2 ^ 31) (hn : k + m < 2 ^ 31)
    (hc : codeName code.toList = some (e, t)) (hlen : 4 ≤ w ∨ k + m ≤ 2 ^ (8 * w))
    (h : ∀ env, EnvOk env → ∃ x : Object, choose env e (t.getD .vandermonde) w k m = .use (.ok x) ∧ x.1.n_data = k ∧ x.1.n_outputs = n ∧
      ∀ N, KeepsFiles x.1 N sys data back frags fprops x.2) :
    ProgramKeeps code w k m n sys data back frags fprops := by
  have hl : 4 ≤ w ∨ k + m ≤ 2 ^ (8 * w) + (if e = .fnt ∨ e = .fntSys then 1 else 0) := hlen.imp_right (fun h => h.trans (Nat.le_add_right _ _))
  obtain ⟨x0, _, _, ho, hK⟩ := h env0 (.inl rfl)
  refine ⟨(hK ⟨[], 0, 0⟩).fsize.trans ho, (hK ⟨[], 0, 0⟩).psize.trans ho, fun env args pfx fs he ha hd => ?_,
    fun env args pfx fs0 fs he ha h0 h1 h2 h3 => ?_⟩
  · obtain ⟨x, ex, rfl, rfl, hx⟩ := h env he
    obtain ⟨fs', s', q1, q2, q3⟩ := (hx (names pfx x.1.n_data x.1.n_outputs)).create fs hd
    refine ⟨fs', ?_, q2, q3⟩
    rw [main_asks ha hw hn hc, if_pos hl, ex]
    simp only
    rw [q1]
  · obtain ⟨x, ex, rfl, rfl, hx⟩ := h env he
    obtain ⟨fs', s', q1, q2, q3⟩ := (hx (names pfx x.1.n_data x.1.n_outputs)).repair fs0 fs h0 h1 h2 h3
    refine ⟨fs', ?_, q2, q3⟩
    rw [main_asks ha hw hn hc, if_pos hl, ex]
    simp only
    rw [q1]

private theorem words_keeps {Γ : Type} {E : Fec Γ} {w k n T : Nat} {sys : Bool} {data frags : Array (List Nat)} {fprops : Array Properties}
    (h : KeepsWords E w k n sys data T frags fprops) (env : Env) :
    (env.words E).1.n_data = k ∧ (env.words E).1.n_outputs = n ∧
      ∀ N, KeepsFiles (env.words E).1 N sys data (data.map (fun f => f.take (T * w))) frags fprops (env.words E).2 :=
  ⟨h.1, h.2.1, fun N => h.2.2.2 _ _ N _⟩

/-- word type of the codes over GF(2^n) -/
private def bits (w : Nat) : Nat := if w ≤ 4 then 32 else if w ≤ 8 then 64 else 128

private theorem bits_supported {w : Nat} (hw : w ∈ [1, 2, 4, 8, 16]) : BinSupported (bits w) (8 * w) ∧ w < 2 ^ 31 := by
  simp only [List.mem_cons, List.not_mem_nil, or_false] at hw
  rcases hw with rfl | rfl | rfl | rfl | rfl <;> exact ⟨⟨by decide, by decide, by decide, by decide⟩, by norm_num⟩

private theorem choose_gf2n {w k m : Nat} (hw : w ∈ [1, 2, 4, 8, 16]) (env : Env) (t : RsGf2n.MatType) :
    choose env .gf2n t w k m = .use (newGf2n env t (bits w) w k m) ∧
    choose env .gf2nFft t w k m = .use (newGf2nFft env (bits w) w k m) ∧
    choose env .gf2nFftAdd t w k m = .use (newGf2nFftAdd env (bits w) w k m) := by
  simp only [List.mem_cons, List.not_mem_nil, or_false] at hw
  rcases hw with rfl | rfl | rfl | rfl | rfl <;> exact ⟨rfl, rfl, rfl⟩

/-! ## Runs that are asked to code or repair -/

/-- C56 for `-e rs-gf2n-v`: any word size and numbers of fragments the code has. -/
theorem C56_vandermonde {w k m : Nat} (hw : w ∈ [1, 2, 4, 8, 16]) (hk : 0 < k) (hlen : k + m ≤ 2 ^ (8 * w)) (hint : k + m < 2 ^ 31)
    {data : Array (List Nat)} {T : Nat} (hd : Gf2nData w k data T) (hT : T ≤ 2 ^ 64) :
    ∃ frags fprops, ProgramKeeps "rs-gf2n-v" w k m m true data (data.map (fun f => f.take (T * w))) frags fprops := by
  have hp : Gf2nParams (bits w) w k m := ⟨hw, (bits_supported hw).1, hk, hlen⟩
  obtain ⟨frags, fprops, h⟩ := C53_vandermonde hp hd hT
  refine ⟨frags, fprops, programKeeps (t := some .vandermonde) (e := .gf2n) (bits_supported hw).2 hint rfl (.inr hlen) (fun env _ => ?_)⟩
  obtain ⟨E, eE, hE⟩ := h hp env.mem env.junk env.junk3
  refine ⟨env.words E, ?_, words_keeps hE env⟩
  rw [(choose_gf2n hw env _).1, newGf2n]
  show Choice.use (Except.map _ (RsGf2n.mk' _ w k m .vandermonde _ _ _)) = _
  rw [eE]; rfl

/-- C56 for `-e rs-gf2n-c` with at most two parity fragments.  Missing: three or more, for which the code cannot always recover
(`C28_three_losses_fail`). -/
theorem C56_cauchy_partial {w k m : Nat} (hw : w ∈ [1, 2, 4, 8, 16]) (hk : 0 < k) (hm : m ≤ 2) (hlen : k + m ≤ 2 ^ (8 * w))
    (hint : k + m < 2 ^ 31) {data : Array (List Nat)} {T : Nat} (hd : Gf2nData w k data T) (hT : T ≤ 2 ^ 64) :
    ∃ frags fprops, ProgramKeeps "rs-gf2n-c" w k m m true data (data.map (fun f => f.take (T * w))) frags fprops := by
  have hp : Gf2nParams (bits w) w k m := ⟨hw, (bits_supported hw).1, hk, hlen⟩
  obtain ⟨frags, fprops, h⟩ := C53_cauchy_partial hp hm hd hT
  refine ⟨frags, fprops, programKeeps (t := some .cauchy) (e := .gf2n) (bits_supported hw).2 hint rfl (.inr hlen) (fun env _ => ?_)⟩
  obtain ⟨E, eE, hE⟩ := h hp env.mem env.junk env.junk3
  refine ⟨env.words E, ?_, words_keeps hE env⟩
  rw [(choose_gf2n hw env _).1, newGf2n]
  show Choice.use (Except.map _ (RsGf2n.mk' _ w k m .cauchy _ _ _)) = _
  rw [eE]; rfl

/-- C56 for `-e rs-gf2n-fft`. -/
theorem C56_multiplicative {w k m : Nat} (hw : w ∈ [1, 2, 4, 8, 16]) (hk : 0 < k) (hm : 0 < m) (hlen : k + m ≤ fftMax w)
    (h2 : 2 * k ≤ fftMax w) {data : Array (List Nat)} {T : Nat} (hd : Gf2nData w k data T) (hT : T ≤ 2 ^ 64) :
    ∃ frags fprops, ProgramKeeps "rs-gf2n-fft" w k m (k + m) false data (data.map (fun f => f.take (T * w))) frags fprops := by
  have hp : Gf2nFftParams (bits w) w k m := ⟨hw, (bits_supported hw).1, hk, hm, hlen, h2⟩
  obtain ⟨frags, fprops, h⟩ := C53_multiplicative hp hd hT
  have h31 := RsGf2nFft.fftMax_lt w
  have hle : fftMax w ≤ 2 ^ (8 * w) := by
    simp only [List.mem_cons, List.not_mem_nil, or_false] at hw
    rcases hw with rfl | rfl | rfl | rfl | rfl <;> decide
  refine ⟨frags, fprops, programKeeps (t := none) (e := .gf2nFft) (bits_supported hw).2 (by omega) rfl (.inr (by omega)) (fun env _ => ?_)⟩
  obtain ⟨E, eE, hE⟩ := h hp env.mem env.junk env.junk3
  refine ⟨env.words (RsGf2nFft.fec E), ?_, words_keeps hE env⟩
  rw [(choose_gf2n hw env _).2.1, newGf2nFft, eE]; rfl

/-- C56 for `-e rs-gf2n-fft-add`.  Missing: the parameters for which decoding fails (`C30_additive_decoding_asserts`), and more than `2^30`
fragments. -/
theorem C56_additive_partial {w k m : Nat} (hw : w ∈ [1, 2, 4, 8, 16]) (hk : 0 < k) (hm : 0 < m) (hlen : k + m ≤ 2 ^ (8 * w))
    (hint : k + m ≤ 2 ^ 30) (h2 : 2 * k < 2 ^ (8 * w)) {data : Array (List Nat)} {T : Nat} (hd : Gf2nData w k data T) (hT : T ≤ 2 ^ 64) :
    ∃ frags fprops, ProgramKeeps "rs-gf2n-fft-add" w k m (k + m) false data (data.map (fun f => f.take (T * w))) frags fprops := by
  have hp : Gf2nFftAddParams (bits w) w k m := ⟨hw, (bits_supported hw).1, hk, hm, hlen, hint⟩
  obtain ⟨frags, fprops, h⟩ := C53_additive_partial hp h2 hd hT
  refine ⟨frags, fprops, programKeeps (t := none) (e := .gf2nFftAdd) (bits_supported hw).2 (by norm_num at hint ⊢; omega) rfl (.inr hlen) (fun env _ => ?_)⟩
  obtain ⟨E, eE, hE⟩ := h hp env.mem env.junk env.junk3
  refine ⟨env.words (RsGf2nFftAdd.fec E), ?_, words_keeps hE env⟩
  rw [(choose_gf2n hw env _).2.2, newGf2nFftAdd, eE]; rfl

/-- C56 for `-e rs-gfp-fft`.  Missing: the parameters `C31_recovery_partial` leaves out. -/
theorem C56_gfp_partial {w k m : Nat} (hp : GfpParams 64 128 w k m) {data : Array (List Nat)} {T : Nat} (hd : Gf2nData w k data T)
    (hT : T ≤ 2 ^ 64) :
    ∃ frags fprops, ProgramKeeps "rs-gfp-fft" w k m (k + m) false data (data.map (fun f => f.take (T * w))) frags fprops := by
  obtain ⟨frags, fprops, h⟩ := C53_gfp_partial hp hd hT
  have hw : w = 1 ∨ w = 2 ∨ w = 4 := by rcases hp.word with ⟨h, _⟩ | ⟨h, _⟩ <;> omega
  have hl : (k + m ≤ 2 ^ (8 * w)) ∧ k + m < 2 ^ 31 := by
    rcases hp.word with ⟨rfl | rfl, _, h, _⟩ | ⟨rfl, _, _, h, _⟩ <;> exact ⟨by omega, by omega⟩
  refine ⟨frags, fprops, programKeeps (t := none) (e := .gfpFft) (by omega) hl.2 rfl (.inr hl.1) (fun env _ => ?_)⟩
  obtain ⟨E, eE, hE⟩ := h hp env.mem
  refine ⟨env.words (RsGfpFft.fec 64 E), ?_, words_keeps hE env⟩
  have : choose env .gfpFft (Option.getD none .vandermonde) w k m = .use (newGfpFft env 64 128 w k m) := if_pos (by omega)
  rw [this, newGfpFft]
  simp only [cassert, decide_eq_true (show w < 64 / 8 by omega), if_true, ok_bind, eE]; rfl

/-- C56 for `-e rs-nf4`. -/
theorem C56_nf4 {w k m : Nat} (hw : w = 2 ∨ w = 4 ∨ w = 8) (hk : 0 < k) (hm : 0 < m) (hlen : k + m ≤ 65536) (h2 : 2 * k ≤ 65536)
    {data : Array (List Nat)} {T : Nat} (hd : Gf2nData w k data T) (hT : T ≤ 2 ^ 64) :
    ∃ frags fprops, ProgramKeeps "rs-nf4" w k m (k + m) false data (data.map (fun f => f.take (T * w))) frags fprops := by
  have hb : ∀ env, EnvOk env → ∃ b, choose env .nf4 (Option.getD none .vandermonde) w k m = .use (newNf4 env b w k m) ∧
      Nf4Params b (RsNf4Obj.nf4Simd b env.reg env.hi) w k m := by
    intro env he
    rcases hw with rfl | rfl | rfl
    · exact ⟨32, rfl, .inl rfl, ⟨by norm_num, by norm_num, by norm_num, fun R hi e => by cases e⟩, hk, hm, hlen, h2⟩
    · exact ⟨64, rfl, .inr (.inl rfl), ⟨by norm_num, by norm_num, by norm_num, fun R hi e => by cases e⟩, hk, hm, hlen, h2⟩
    · refine ⟨128, rfl, .inr (.inr rfl), ⟨by norm_num, by norm_num, by norm_num, fun R hi e => ⟨rfl, ?_⟩⟩, hk, hm, hlen, h2⟩
      simp only [RsNf4Obj.nf4Simd, if_true] at e
      rcases he with he | he | he <;> rw [he] at e <;> cases e <;> simp
  obtain ⟨b0, _, p0⟩ := hb env0 (.inl rfl)
  obtain ⟨frags, fprops, h⟩ := C53_nf4 p0 hd hT
  have hl : 4 ≤ w ∨ k + m ≤ 2 ^ (8 * w) := by rcases hw with rfl | rfl | rfl <;> [right; left; left] <;> omega
  refine ⟨frags, fprops, programKeeps (t := none) (e := .nf4) (by omega) (by omega) rfl hl (fun env he => ?_)⟩
  obtain ⟨b, eb, p⟩ := hb env he
  obtain ⟨E, eE, hE⟩ := h p 1024 env.mem
  refine ⟨env.words (RsNf4.fec E), ?_, words_keeps hE env⟩
  rw [eb, newNf4, eE]; rfl

/-- C56 for `-e rs-fnt` and `-e rs-fnt-sys`.  Missing: files of different lengths, or that are not whole words. -/
theorem C56_fnt_partial (sys : Bool) {w k m : Nat} (hw : w = 1 ∨ w = 2) (hk : 0 < k) (hm : 0 < m) (hlen : k + m ≤ 2 ^ (8 * w))
    (h2 : 2 * k ≤ 2 ^ (8 * w)) {data : Array (List Nat)} {T : Nat} (hd : StreamData w k data T) (hT : T ≤ 2 ^ 64) :
    ∃ frags fprops, ProgramKeeps (if sys then "rs-fnt-sys" else "rs-fnt") w k m (if sys then m else k + m) sys data data frags fprops := by
  set c : FntCode := ⟨16 * w, 32 * w, w, k, m, sys⟩ with hcdef
  have hc : c.Ok := by
    refine ⟨?_, hw, hk, hm, hlen, h2⟩
    rcases hw with rfl | rfl
    · exact .inr (.inr ⟨rfl, rfl, rfl⟩)
    · exact .inl ⟨rfl, rfl⟩
  obtain ⟨frags, fprops, _, h⟩ := C53_fnt_partial hc (data := data) (T := T) ⟨hd.size, hd.bytes, hd.len⟩ hT
  have h16 : 2 ^ (8 * w) ≤ 2 ^ 16 := Nat.pow_le_pow_right (by omega) (by omega)
  refine ⟨frags, fprops, programKeeps (t := none) (e := if sys then .fntSys else .fnt) (by omega) (by norm_num at h16 ⊢; omega)
    (by cases sys <;> rfl) (.inr hlen) (fun env he => ?_)⟩
  have hb : c.Builds env.reg := by
    intro R hR
    rcases he with h | h | h <;> rw [h] at hR <;> cases hR
    · exact ⟨.inl rfl, .inr rfl⟩
    · exact ⟨.inr rfl, .inr rfl⟩
  obtain ⟨H, R, e⟩ := C23_new hc hb 1024 env.mem env.junk env.heap
  have hr : FntCode.Reachable { c with b := c.b, db := c.db } 1024 R R.enc_context H := .new ⟨env.reg, hb, _, _, _, e⟩
  have hch : choose env (if sys then .fntSys else .fnt) (Option.getD none .vandermonde) w k m = .use (newFnt env sys (16 * w) (32 * w) w k m) := by
    cases sys <;> rcases hw with rfl | rfl <;> rfl
  refine ⟨⟨Coder.vertical (R.fecV (16 * w)) env.memDec env.junkEnc env.junkDec, (R.enc_context, H, (0 : Nat))⟩, ?_, ?_⟩
  · rw [hch, newFnt]
    have e' : RsFntObj.mk' (.of env.reg (16 * w)) (16 * w) (32 * w) sys w k m 1024 env.mem env.junk env.heap = .ok (H, R) := e
    rw [e']; rfl
  · have q := fun N => h c.b c.db hc (by norm_num) hr env.memDec env.junkEnc env.junkDec N 0
    exact ⟨(q ⟨[], 0, 0⟩).1, (q ⟨[], 0, 0⟩).2.1, fun N => (q N).2.2⟩

/-! ## What runs leave alone -/

/-- C56: whatever the options, the build and the files, only files of the given prefix change: coding files and their properties, and,
only if a repair is asked for, data files that were missing. -/
theorem C56_touches_only_its_files (env : Env) (args : List (Char × List Char)) (fs : Fs) (x : Name) (h : (main env args fs).1 x ≠ fs x) :
    ∃ pfx, ('p', pfx) ∈ args ∧ ∃ z i, x = get_filename pfx 'c' z i [] ∨ x = get_filename pfx 'c' z i ".props".toList ∨
      (x = get_filename pfx 'd' z i [] ∧ fs x = none ∧ ∃ a ∈ args, a.1 = 'r') := by
  unfold main at h
  split at h
  · exact absurd rfl h
  rename_i o ho
  unfold dispatch at h
  repeat' split at h
  all_goals first | exact absurd rfl h | skip
  rename_i pfx hp _ x' _
  have hpf : ('p', pfx) ∈ args := by
    rcases options_or (fun o : Opts => o.pfx) (fun v => ∀ q, v = some q → ('p', q) ∈ args) (fun a ha o o' q => by
      by_cases h1 : a.1 = 'p'
      · right
        intro v hv
        rw [(option_inv q).2.2.2.2.2.2.2.2.2.1 h1] at hv
        cases hv
        rw [← h1]; exact ha
      · exact .inl ((option_inv q).2.2.2.2.1 h1)) ho with q | q
    · rw [hp] at q; cases q
    · exact q _ hp
  have hrf : o.rflag = true → ∃ a ∈ args, a.1 = 'r' := by
    intro hr
    by_contra hn
    push Not at hn
    have := options_keep (fun o : Opts => o.rflag) (fun a ha o o' q => (option_inv q).2.2.2.2.2.2.2.1 (hn a ha)) ho
    rw [hr] at this; cases this
  have hrun : (run x'.1 (names pfx (toUnsigned o.n_data) x'.1.n_outputs) o.rflag x'.2 fs).1 x ≠ fs x := by
    unfold runObject at h
    split at h
    · exact absurd rfl h
    · split at h <;> rename_i e <;> rw [e] <;> exact h
  refine ⟨pfx, hpf, ?_⟩
  rcases run_other hrun with ⟨f, _, e | e⟩ | ⟨hr, ⟨i, _, e⟩, e2⟩
  · exact ⟨_, _, .inl e⟩
  · exact ⟨_, _, .inr (.inl e)⟩
  · exact ⟨_, _, .inr (.inr ⟨e, e2, hrf hr⟩)⟩

/-- C56: a wrong command line changes no file and does not end with success. -/
theorem C56_wrong_command_lines {args : List (Char × List Char)} (h : Wrong args) (env : Env) (fs : Fs) :
    ∃ x, main env args fs = (fs, x) ∧ x ≠ .status 0 := by
  have bad : (∃ a ∈ args, ∀ o, ∃ x, option o a.1 a.2 = .error x) → ∃ x, main env args fs = (fs, x) ∧ x ≠ .status 0 := by
    rintro ⟨a, ha, h⟩
    obtain ⟨x, e⟩ := options_bad ha h {}
    exact ⟨x, by unfold main; rw [e], options_error e⟩
  have opt : (∀ o, options args {} = .ok o → o.eflag = none ∨ (o.uflag || o.cflag || o.rflag) = false ∨ o.n_data = -1 ∨ o.n_parities = -1 ∨
      o.pfx = none) → ∃ x, main env args fs = (fs, x) ∧ x ≠ .status 0 := by
    intro h
    unfold main
    cases ho : options args {} with
    | error x => exact ⟨x, rfl, options_error ho⟩
    | ok o =>
      simp only
      unfold dispatch
      rcases h o ho with h | h | h | h | h
      · rw [h]; exact ⟨_, rfl, by simp⟩
      · rw [h]
        split
        · exact ⟨_, rfl, by simp⟩
        · exact ⟨_, rfl, by simp⟩
      all_goals
        repeat' split
        all_goals first | (exfalso; simp_all; done) | (refine ⟨_, rfl, ?_⟩; simp; done)
  cases h with
  | letter ha hl =>
    refine bad ⟨_, ha, fun o => ?_⟩
    rename_i a
    cases e : option o a.1 a.2 with
    | error x => exact ⟨x, rfl⟩
    | ok o' => exact absurd (option_inv e).2.2.2.2.2.2.2.2.2.2 hl
  | code ha hx =>
    refine bad ⟨_, ha, fun o => ⟨.status 1, ?_⟩⟩
    rename_i x
    have : codeName x = none := by
      simp only [codeNames, List.map_cons, List.map_nil, List.mem_cons, List.not_mem_nil, or_false, not_or] at hx
      unfold codeName
      simp only [hx, if_false]
    rw [option_e, this]
  | number ha hl hd =>
    refine bad ⟨_, ha, fun o => ⟨.raised (.throws .logicError), ?_⟩⟩
    rename_i a
    obtain ⟨c, x⟩ := a
    simp only [List.mem_cons, List.not_mem_nil, or_false] at hl
    rcases hl with rfl | rfl | rfl
    · rw [option_w, stoi_none hd]
    · rw [option_n, stoi_none hd]
    · rw [option_m, stoi_none hd]
  | large ha hl hv =>
    refine bad ⟨_, ha, fun o => ⟨.raised (.throws .logicError), ?_⟩⟩
    simp only [List.mem_cons, List.not_mem_nil, or_false] at hl
    rcases hl with rfl | rfl | rfl
    · rw [option_w, stoi_digits, if_pos hv]
    · rw [option_n, stoi_digits, if_pos hv]
    · rw [option_m, stoi_digits, if_pos hv]
  | missing hc hn =>
    refine opt (fun o ho => ?_)
    simp only [List.mem_cons, List.not_mem_nil, or_false] at hc
    rcases hc with rfl | rfl | rfl | rfl
    · exact .inl (options_keep (fun o : Opts => o.eflag) (fun a ha o o' q => ((option_inv q).1 (hn a ha)).1) ho)
    · exact .inr (.inr (.inl (options_keep (fun o : Opts => o.n_data) (fun a ha o o' q => (option_inv q).2.2.1 (hn a ha)) ho)))
    · exact .inr (.inr (.inr (.inl (options_keep (fun o : Opts => o.n_parities) (fun a ha o o' q => (option_inv q).2.2.2.1 (hn a ha)) ho))))
    · exact .inr (.inr (.inr (.inr (options_keep (fun o : Opts => o.pfx) (fun a ha o o' q => (option_inv q).2.2.2.2.1 (hn a ha)) ho))))
  | mode hn =>
    refine opt (fun o ho => .inr (.inl ?_))
    have key : ∀ c ∈ ['c', 'u', 'r'], ∀ a ∈ args, a.1 ≠ c := fun c hc a ha e => hn a ha (by rw [e]; exact hc)
    rw [options_keep (fun o : Opts => o.uflag) (fun a ha o o' q => (option_inv q).2.2.2.2.2.2.1 (key _ (by simp) a ha)) ho,
      options_keep (fun o : Opts => o.cflag) (fun a ha o o' q => (option_inv q).2.2.2.2.2.1 (key _ (by simp) a ha)) ho,
      options_keep (fun o : Opts => o.rflag) (fun a ha o o' q => (option_inv q).2.2.2.2.2.2.2.1 (key _ (by simp) a ha)) ho]
    rfl

/-- C56: with `-t` no file changes, whatever the other options. -/
theorem C56_test_option {args : List (Char × List Char)} (h : ∃ a ∈ args, a.1 = 't') (env : Env) (fs : Fs) : (main env args fs).1 = fs := by
  unfold main
  cases ho : options args {} with
  | error x => rfl
  | ok o =>
    obtain ⟨a, ha, ht⟩ := h
    have htf : o.tflag = true := options_set (fun o : Opts => o.tflag) true (fun a _ o o' q => by
      by_cases h1 : a.1 = 't'
      · right
        obtain ⟨c, x⟩ := a
        subst h1
        rw [option_t] at q; cases q; rfl
      · exact .inl ((option_inv q).2.2.2.2.2.2.2.2.1 h1)) ⟨a, ha, fun o o' q => by
        obtain ⟨c, x⟩ := a
        subst ht
        rw [option_t] at q; cases q; rfl⟩ ho
    simp only
    unfold dispatch
    repeat' split
    all_goals first | rfl | skip
    unfold runObject
    rw [htf]; rfl

private theorem code_of {code : String} (h : code ∈ codeNames) :
    ∃ e t, codeName code.toList = some (e, t) ∧ (isFnt code = true ↔ e = .fnt ∨ e = .fntSys) ∧ (code = "rs-nf4" ↔ e = .nf4) ∧
      (code = "rs-gfp-fft" ↔ e = .gfpFft) ∧ ∀ k m, outputs e k m = codingFiles code k m := by
  simp only [codeNames, List.mem_cons, List.not_mem_nil, or_false] at h
  rcases h with rfl | rfl | rfl | rfl | rfl | rfl | rfl | rfl
  · exact ⟨.gf2n, some .vandermonde, rfl, by decide, by decide, by decide, fun k m => rfl⟩
  · exact ⟨.gf2n, some .cauchy, rfl, by decide, by decide, by decide, fun k m => rfl⟩
  · exact ⟨.gf2nFft, none, rfl, by decide, by decide, by decide, fun k m => rfl⟩
  · exact ⟨.gf2nFftAdd, none, rfl, by decide, by decide, by decide, fun k m => rfl⟩
  · exact ⟨.gfpFft, none, rfl, by decide, by decide, by decide, fun k m => rfl⟩
  · exact ⟨.nf4, none, rfl, by decide, by decide, by decide, fun k m => rfl⟩
  · exact ⟨.fnt, none, rfl, by decide, by decide, by decide, fun k m => rfl⟩
  · exact ⟨.fntSys, none, rfl, by decide, by decide, by decide, fun k m => rfl⟩

/-- C56: with more fragments than words of 1, 2 or 3 bytes can tell apart (and one more for the codes on Fermat numbers) the program fails and
changes no file. -/
theorem C56_too_many_fragments {args : List (Char × List Char)} {code : String} {w k m : Nat} {pfx : List Char} {r : Bool}
    (hc : code ∈ codeNames) (h : Asks args code w k m pfx r) (hw : w < 4) (hn : k + m < 2 ^ 31)
    (hlen : 2 ^ (8 * w) + (if isFnt code then 1 else 0) < k + m) (env : Env) (fs : Fs) : main env args fs = (fs, .status 1) := by
  obtain ⟨e, t, he, hf, _⟩ := code_of hc
  rw [main_asks h (by omega) hn he, if_neg]
  rw [not_or]
  refine ⟨by omega, ?_⟩
  by_cases hq : isFnt code = true
  · rw [if_pos (hf.1 hq)]; rw [if_pos hq] at hlen; omega
  · rw [if_neg (fun h => hq (hf.2 h))]; rw [if_neg hq] at hlen; omega

/-- C56: a run that ends with success has left all data files and all coding files with their properties there, if the word size is not too
large for the program.  Missing: larger word sizes (`C56_ignored_word_sizes`). -/
theorem C56_success_partial {args : List (Char × List Char)} {code : String} {w k m : Nat} {pfx : List Char} {r : Bool}
    (hc : code ∈ codeNames) (h : Asks args code w k m pfx r) (hw : w ≤ largestWord code) (hn : k + m < 2 ^ 31) {env : Env} {fs fs' : Fs}
    (hs : main env args fs = (fs', .status 0)) :
    (∀ i, i < k → (fs' ((names pfx k (codingFiles code k m)).d i)).isSome = true) ∧
    ∀ f, f < codingFiles code k m → (fs' ((names pfx k (codingFiles code k m)).c f)).isSome = true ∧
      (fs' ((names pfx k (codingFiles code k m)).p f)).isSome = true := by
  obtain ⟨e, t, he, hf, hnf, hg, ho⟩ := code_of hc
  have hw' : w < 2 ^ 31 := by
    refine hw.trans_lt ?_
    unfold largestWord
    repeat' split
    all_goals norm_num
  rw [main_asks h hw' hn he] at hs
  by_cases hl : 4 ≤ w ∨ k + m ≤ 2 ^ (8 * w) + (if e = .fnt ∨ e = .fntSys then 1 else 0)
  swap
  · rw [if_neg hl] at hs; cases hs
  rw [if_pos hl] at hs
  split at hs
  · rename_i hch
    exfalso
    cases e with
    | fnt => unfold choose at hch; simp only at hch; repeat' split at hch
             all_goals cases hch
    | fntSys => unfold choose at hch; simp only at hch; repeat' split at hch
                all_goals cases hch
    | nf4 =>
      have hw : w ≤ 8 := by rw [hnf.2 rfl] at hw; exact hw
      unfold choose at hch; simp only at hch; repeat' split at hch
      all_goals first | (cases hch; done) | omega
    | gfpFft =>
      have hw : w ≤ 15 := by rw [hg.2 rfl] at hw; exact hw
      unfold choose at hch; simp only at hch; repeat' split at hch
      all_goals first | (cases hch; done) | omega
    | _ =>
      have h1 : isFnt code = false := by rw [Bool.eq_false_iff]; intro h; have := hf.1 h; simp at this
      have h2 : code ≠ "rs-nf4" := fun h => by have := hnf.1 h; cases this
      have h3 : code ≠ "rs-gfp-fft" := fun h => by have := hg.1 h; cases this
      have hw : w ≤ 16 := by unfold largestWord at hw; simpa only [h1, h2, h3, Bool.false_eq_true, if_false] using hw
      unfold choose at hch; simp only at hch; repeat' split at hch
      all_goals first | (cases hch; done) | omega
  · cases hs
  · cases hs
  · rename_i x hch
    obtain ⟨c1, c2⟩ := choose_counts hch
    rw [ho] at c2
    split at hs
    · rename_i er
      cases hs
      rw [c2] at er
      have := run_done er
      rw [c1, c2] at this
      exact this
    · cases hs
    · cases hs

/-- C56 is false: with a word size that is too large the program does nothing and ends with success. -/
theorem C56_ignored_word_sizes {args : List (Char × List Char)} {code : String} {w k m : Nat} {pfx : List Char} {r : Bool}
    (hc : code ∈ codeNames) (hf : isFnt code = false) (h : Asks args code w k m pfx r) (hw : largestWord code < w) (hw' : w < 2 ^ 31)
    (hn : k + m < 2 ^ 31) (env : Env) (fs : Fs) : main env args fs = (fs, .status 0) := by
  have hw4 : 4 ≤ w := by
    refine le_trans ?_ hw
    unfold largestWord
    rw [hf]
    simp only [Bool.false_eq_true, if_false]
    repeat' split
    all_goals norm_num
  simp only [codeNames, List.mem_cons, List.not_mem_nil, or_false] at hc
  rcases hc with rfl | rfl | rfl | rfl | rfl | rfl | rfl | rfl
  · rw [main_asks (e := .gf2n) (t := some .vandermonde) h hw' hn rfl, if_pos (.inl hw4)]
    have hw : 16 < w := hw
    unfold choose
    simp only [show ¬ w ≤ 4 by omega, show ¬ w ≤ 8 by omega, show ¬ w ≤ 16 by omega, if_false]
  · rw [main_asks (e := .gf2n) (t := some .cauchy) h hw' hn rfl, if_pos (.inl hw4)]
    have hw : 16 < w := hw
    unfold choose
    simp only [show ¬ w ≤ 4 by omega, show ¬ w ≤ 8 by omega, show ¬ w ≤ 16 by omega, if_false]
  · rw [main_asks (e := .gf2nFft) (t := none) h hw' hn rfl, if_pos (.inl hw4)]
    have hw : 16 < w := hw
    unfold choose
    simp only [show ¬ w ≤ 4 by omega, show ¬ w ≤ 8 by omega, show ¬ w ≤ 16 by omega, if_false]
  · rw [main_asks (e := .gf2nFftAdd) (t := none) h hw' hn rfl, if_pos (.inl hw4)]
    have hw : 16 < w := hw
    unfold choose
    simp only [show ¬ w ≤ 4 by omega, show ¬ w ≤ 8 by omega, show ¬ w ≤ 16 by omega, if_false]
  · rw [main_asks (e := .gfpFft) (t := none) h hw' hn rfl, if_pos (.inl hw4)]
    have hw : 15 < w := hw
    unfold choose
    simp only [show ¬ w ≤ 7 by omega, show ¬ w ≤ 15 by omega, if_false]
  · rw [main_asks (e := .nf4) (t := none) h hw' hn rfl, if_pos (.inl hw4)]
    have hw : 8 < w := hw
    unfold choose
    simp only [show ¬ w ≤ 2 by omega, show ¬ w ≤ 4 by omega, show ¬ w ≤ 8 by omega, if_false]
  · cases hf
  · cases hf

private theorem binExt_refused {b n : Nat} (h : n ∉ [1, 2, 3, 4, 8, 16, 32, 64, 128]) (junk : Nat → Nat → Nat) (junk3 : Nat → Nat → Nat → Nat) :
    BinExt.mk' b n junk junk3 = .error .assertFail := by
  simp only [List.mem_cons, List.not_mem_nil, or_false, not_or] at h
  obtain ⟨h1, h2, h3, h4, h8, h16, h32, h64, h128⟩ := h
  unfold BinExt.mk'
  have : BinExt.polynomial b n = .error .assertFail := by
    unfold BinExt.polynomial
    simp only [h1, h2, h3, h4, h8, h16, h32, h64, h128, if_false]
  rw [this]
  unfold cassert
  split <;> rfl

private theorem gf2n_refused {w : Nat} (h : w ∉ [1, 2, 4, 8, 16]) (env : Env) (b k m : Nat) (t : RsGf2n.MatType) :
    newGf2n env t b w k m = .error .assertFail ∧ newGf2nFft env b w k m = .error .assertFail ∧
    newGf2nFftAdd env b w k m = .error .assertFail := by
  have hn : 8 * w ∉ [1, 2, 3, 4, 8, 16, 32, 64, 128] := by
    simp only [List.mem_cons, List.not_mem_nil, or_false] at h ⊢
    omega
  have e := binExt_refused (b := b) hn env.junk env.junk3
  unfold newGf2n newGf2nFft newGf2nFftAdd RsGf2n.mk' RsGf2n.mkObj RsGf2nFft.mkBase RsGf2nFftAdd.mkCode
  simp only [e]
  unfold cassert
  split <;> exact ⟨rfl, rfl, rfl⟩

private theorem gfp_refused {w : Nat} (h : w ∉ [1, 2, 4]) (env : Env) (k m : Nat) :
    (∃ x, newGfpFft env 64 128 w k m = .error x) ∧ (7 < w → ∃ x, newGfpFft env 128 128 w k m = .error x) := by
  simp only [List.mem_cons, List.not_mem_nil, or_false, not_or] at h
  have big : 4 < w → ∀ b db, ∃ x, newGfpFft env b db w k m = .error x := by
    intro h4 b db
    have hp : RsGfpFft.params b w = .error .assertFail := by
      unfold RsGfpFft.params
      rw [if_neg (by omega), if_neg (by omega)]
    unfold newGfpFft RsGfpFft.mkBase cassert
    rw [hp]
    split <;> exact ⟨_, rfl⟩
  refine ⟨?_, fun h7 => big (by omega) _ _⟩
  by_cases h4 : 4 < w
  · exact big h4 _ _
  have hw : w = 0 ∨ w = 3 := by omega
  unfold newGfpFft RsGfpFft.mkBase RsGfpFft.params
  rcases hw with rfl | rfl
  · exact ⟨.assertFail, rfl⟩
  · obtain ⟨O, e1, e2⟩ := init_three (b := 64) (db := 128) (.inr ⟨rfl, rfl⟩)
    refine ⟨.assertFail, ?_⟩
    simp only [cassert, decide_eq_true (show 3 < 64 / 8 by norm_num), if_true, ok_bind, show (3 : Nat) < 4 by norm_num,
      decide_eq_true (show wrap 64 (2 ^ (8 * 3) + 1) ≥ wrap 64 (2 ^ (8 * 3)) by decide),
      decide_eq_true (show wrap 64 (2 ^ (8 * 3) + 1) / 2 < wrap 64 (2 ^ (8 * 3)) by decide)]
    rw [e1, ok_bind, e2, ok_bind]
    rfl

/-- no object for a word size the code does not have -/
private theorem choose_refused {e : Ec} {w k m : Nat} (env : Env) (t : RsGf2n.MatType)
    (h : (e = .fnt ∨ e = .fntSys) ∧ w ∉ [1, 2] ∨ e = .nf4 ∧ w < 2 ∨ e = .gfpFft ∧ w ∉ [1, 2, 4] ∧ w ≤ 15 ∨
      (e = .gf2n ∨ e = .gf2nFft ∨ e = .gf2nFftAdd) ∧ w ∉ [1, 2, 4, 8, 16] ∧ w ≤ 16) :
    choose env e t w k m = .refuse ∨ ∃ x, choose env e t w k m = .use (.error x) := by
  rcases h with ⟨h, hw⟩ | ⟨rfl, hw⟩ | ⟨rfl, hw, hw'⟩ | ⟨h, hw, hw'⟩
  · simp only [List.mem_cons, List.not_mem_nil, or_false, not_or] at hw
    left
    rcases h with rfl | rfl <;> (unfold choose; simp only [hw, if_false])
  · right
    refine ⟨.assertFail, ?_⟩
    unfold choose
    simp only [show w ≤ 2 by omega, if_true]
    unfold newNf4
    rw [C32_refused_word_sizes (.inl hw)]; rfl
  · right
    obtain ⟨⟨x, h1⟩, h2⟩ := gfp_refused hw env k m
    unfold choose
    simp only
    by_cases h7 : w ≤ 7
    · exact ⟨x, by rw [if_pos h7, h1]⟩
    · obtain ⟨y, h3⟩ := h2 (by omega)
      exact ⟨y, by rw [if_neg h7, if_pos hw', h3]⟩
  · right
    refine ⟨.assertFail, ?_⟩
    have hr := fun b => gf2n_refused hw env b k m t
    unfold choose
    rcases h with rfl | rfl | rfl <;> simp only [hr, hw', if_true] <;> split <;> [rfl; skip; rfl; skip; rfl; skip] <;> split <;> rfl

/-- C56: without `-w` no file changes and the program does not end with success. -/
theorem C56_word_size_is_needed {args : List (Char × List Char)} (h : ∀ a ∈ args, a.1 ≠ 'w') (env : Env) (fs : Fs) :
    ∃ x, main env args fs = (fs, x) ∧ x ≠ .status 0 := by
  unfold main
  cases ho : options args {} with
  | error x => exact ⟨x, rfl, options_error ho⟩
  | ok o =>
    have hw : o.word_size = 0 := options_keep (fun o : Opts => o.word_size) (fun a ha o o' q => (option_inv q).2.1 (h a ha)) ho
    simp only
    unfold dispatch
    split
    · exact ⟨_, rfl, by simp⟩
    rename_i e _
    have hc := choose_refused (e := e) (w := 0) (k := toUnsigned o.n_data) (m := toUnsigned o.n_parities) env o.mflag (by cases e <;> simp)
    rw [hw]
    split
    · exact ⟨_, rfl, by simp⟩
    split
    · exact ⟨_, rfl, by simp⟩
    split
    · exact ⟨_, rfl, by simp⟩
    · exact ⟨_, rfl, by simp⟩
    split
    · exact ⟨_, rfl, by simp⟩
    split
    · exact ⟨_, rfl, by simp⟩
    rcases hc with hc | ⟨x, hc⟩ <;> rw [hc] <;> exact ⟨_, rfl, by simp⟩

/-- C56: with a word size the code does not have, no file changes and the program does not end with success, as long as the
program has a word type for that size. -/
theorem C56_unsupported_word_sizes {args : List (Char × List Char)} {code : String} {w k m : Nat} {pfx : List Char} {r : Bool}
    (hc : code ∈ codeNames) (h : Asks args code w k m pfx r) (hw : w ∉ wordSizes code) (hl : w ≤ largestWord code ∨ isFnt code = true)
    (hw' : w < 2 ^ 31) (hn : k + m < 2 ^ 31) (env : Env) (fs : Fs) : ∃ x, main env args fs = (fs, x) ∧ x ≠ .status 0 := by
  have key : ∀ e t, codeName code.toList = some (e, t) → ((e = .fnt ∨ e = .fntSys) ∧ w ∉ [1, 2] ∨ e = .nf4 ∧ w < 2 ∨
      e = .gfpFft ∧ w ∉ [1, 2, 4] ∧ w ≤ 15 ∨ (e = .gf2n ∨ e = .gf2nFft ∨ e = .gf2nFftAdd) ∧ w ∉ [1, 2, 4, 8, 16] ∧ w ≤ 16) →
      ∃ x, main env args fs = (fs, x) ∧ x ≠ .status 0 := by
    intro e t he hh
    rw [main_asks h hw' hn he]
    by_cases hq : 4 ≤ w ∨ k + m ≤ 2 ^ (8 * w) + (if e = .fnt ∨ e = .fntSys then 1 else 0)
    · rw [if_pos hq]
      rcases choose_refused (k := k) (m := m) env (t.getD .vandermonde) hh with hc | ⟨x, hc⟩ <;> rw [hc] <;> exact ⟨_, rfl, by simp⟩
    · rw [if_neg hq]; exact ⟨_, rfl, by simp⟩
  simp only [codeNames, List.mem_cons, List.not_mem_nil, or_false] at hc
  rcases hc with rfl | rfl | rfl | rfl | rfl | rfl | rfl | rfl
  · exact key .gf2n _ rfl (.inr (.inr (.inr ⟨.inl rfl, hw, hl.resolve_right (by decide)⟩)))
  · exact key .gf2n _ rfl (.inr (.inr (.inr ⟨.inl rfl, hw, hl.resolve_right (by decide)⟩)))
  · exact key .gf2nFft _ rfl (.inr (.inr (.inr ⟨.inr (.inl rfl), hw, hl.resolve_right (by decide)⟩)))
  · exact key .gf2nFftAdd _ rfl (.inr (.inr (.inr ⟨.inr (.inr rfl), hw, hl.resolve_right (by decide)⟩)))
  · exact key .gfpFft _ rfl (.inr (.inr (.inl ⟨rfl, hw, hl.resolve_right (by decide)⟩)))
  · refine key .nf4 _ rfl (.inr (.inl ⟨rfl, ?_⟩))
    have hl : w ≤ 8 := hl.resolve_right (by decide)
    have hw : w ∉ [2, 3, 4, 5, 6, 7, 8] := hw
    simp only [List.mem_cons, List.not_mem_nil, or_false, not_or] at hw
    omega
  · exact key .fnt _ rfl (.inl ⟨.inl rfl, hw⟩)
  · exact key .fntSys _ rfl (.inl ⟨.inr rfl, hw⟩)

/-- C56: with numbers of fragments that a code on Fermat numbers cannot have, among them the one more that the check of the program lets pass, no
file changes and the program does not end with success. -/
theorem C56_fnt_refused {args : List (Char × List Char)} {sys : Bool} {w k m : Nat} {pfx : List Char} {r : Bool}
    (h : Asks args (if sys then "rs-fnt-sys" else "rs-fnt") w k m pfx r) (hw : w = 1 ∨ w = 2) (hk : 0 < k) (hm : 0 < m) (hn : k + m < 2 ^ 31)
    (hlen : ¬ (k + m ≤ 2 ^ (8 * w) ∧ 2 * k ≤ 2 ^ (8 * w))) (env : Env) (fs : Fs) : ∃ x, main env args fs = (fs, x) ∧ x ≠ .status 0 := by
  have hT : WordType (16 * w) (32 * w) ∨ (16 * w = 16 ∧ 32 * w = 32 ∧ w = 1) := by
    rcases hw with rfl | rfl
    · exact .inr ⟨rfl, rfl, rfl⟩
    · exact .inl (.inl ⟨rfl, rfl⟩)
  have hr := fnt_refused (pkt := 1024) sys hT hk hm env.mem (fun h' => hlen ⟨h'.len, h'.two⟩)
  have hx : ∃ x, RsFntObj.mk' (.of env.reg (16 * w)) (16 * w) (32 * w) sys w k m 1024 env.mem env.junk env.heap = .error x := by
    unfold RsFntObj.mk'
    rcases hr with hr | ⟨x, hr⟩ <;> rw [hr] <;> exact ⟨_, rfl⟩
  obtain ⟨x, hx⟩ := hx
  have hch : choose env (if sys then .fntSys else .fnt) (Option.getD none .vandermonde) w k m = .use (newFnt env sys (16 * w) (32 * w) w k m) := by
    cases sys <;> rcases hw with rfl | rfl <;> rfl
  have hch' : choose env (if sys then .fntSys else .fnt) (Option.getD none .vandermonde) w k m = .use (.error x) := by
    rw [hch, newFnt, hx]; rfl
  have hname : codeName (if sys then "rs-fnt-sys" else "rs-fnt").toList = some (if sys then .fntSys else .fnt, none) := by cases sys <;> rfl
  generalize (if sys then Ec.fntSys else Ec.fnt) = e at hch' hname
  rw [main_asks h (by omega) hn hname]
  by_cases hq : 4 ≤ w ∨ k + m ≤ 2 ^ (8 * w) + (if e = .fnt ∨ e = .fntSys then 1 else 0)
  · rw [if_pos hq, hch']; exact ⟨_, rfl, by simp⟩
  · rw [if_neg hq]; exact ⟨_, rfl, by simp⟩

/-- C56 is false: with `-e rs-nf4` and words of 3, 5, 6 or 7 bytes, an assertion fails after the coding files were emptied. -/
theorem C56_nf4_word_sizes_empty_files {args : List (Char × List Char)} {w k m : Nat} {pfx : List Char}
    (h : Asks args "rs-nf4" w k m pfx false) (hw : w = 3 ∨ w = 5 ∨ w = 6 ∨ w = 7) (hk : 0 < k) (hm : 0 < m) (hlen : k + m ≤ 65536)
    (h2 : 2 * k ≤ 65536) {env : Env} (he : EnvOk env) {fs : Fs} (hd : ∀ i, i < k → (fs ((names pfx k (k + m)).d i)).isSome = true) :
    ∃ fs', main env args fs = (fs', .raised .assertFail) ∧
      ∀ f, f < k + m → fs' ((names pfx k (k + m)).c f) = some [] ∧ fs' ((names pfx k (k + m)).p f) = some [] := by
  have hb : ∃ b, choose env .nf4 (Option.getD none .vandermonde) w k m = .use (newNf4 env b w k m) ∧
      Nf4Build b (w / 2) (RsNf4Obj.nf4Simd b env.reg env.hi) := by
    have v : ∀ R hi, RsNf4Obj.nf4Simd 128 env.reg env.hi = some (R, hi) → 128 = 128 ∧ (R = 16 ∨ R = 32) := by
      intro R hi e
      simp only [RsNf4Obj.nf4Simd, if_true] at e
      rcases he with he | he | he <;> rw [he] at e <;> cases e <;> simp
    rcases hw with rfl | rfl | rfl | rfl
    · exact ⟨64, rfl, ⟨by norm_num, by norm_num, by norm_num, fun R hi e => by cases e⟩⟩
    · exact ⟨128, rfl, ⟨by norm_num, by norm_num, by norm_num, v⟩⟩
    · exact ⟨128, rfl, ⟨by norm_num, by norm_num, by norm_num, v⟩⟩
    · exact ⟨128, rfl, ⟨by norm_num, by norm_num, by norm_num, v⟩⟩
  obtain ⟨b, eb, hB⟩ := hb
  obtain ⟨c, ec, henc⟩ := C32_other_word_sizes (pkt := 1024) hw hB hk hm hlen h2 env.mem
  have eb' : choose env .nf4 (Option.getD none .vandermonde) w k m = .use (.ok (env.words (RsNf4.fec c))) := by
    rw [eb, newNf4, ec]; rfl
  obtain ⟨c1, c2⟩ := choose_counts eb'
  have c2 : (env.words (RsNf4.fec c)).1.n_outputs = k + m := c2
  have hl : 4 ≤ w ∨ k + m ≤ 2 ^ (8 * w) + (if Ec.nf4 = .fnt ∨ Ec.nf4 = .fntSys then 1 else 0) := by
    rcases hw with rfl | rfl | rfl | rfl <;> [right; left; left; left] <;> simp <;> omega
  have hrun : run (env.words (RsNf4.fec c)).1 (names pfx k (k + m)) false (env.words (RsNf4.fec c)).2 fs =
      (openCoding (names pfx k (k + m)) (k + m) fs, .raised .assertFail) := by
    unfold run create_coding_files
    simp only [Bool.false_eq_true, if_false]
    rw [if_pos (by rw [List.all_eq_true]; intro i hi; rw [c1] at hi; exact hd i (List.mem_range.1 hi)), c2]
    have : ∀ data, (env.words (RsNf4.fec c)).1.enc (env.words (RsNf4.fec c)).2 data (Array.replicate (k + m) [])
        (Array.replicate (k + m) .empty) = .error .assertFail := by
      intro data
      show ((RsNf4.fec c).encode_streams_horizontal _ _ _ _ >>= _) = _
      rw [henc]; rfl
    rw [this]
  refine ⟨openCoding (names pfx k (k + m)) (k + m) fs, ?_, fun f hf => ⟨openCoding_coding ⟨f, hf, .inl rfl⟩, openCoding_coding ⟨f, hf, .inr rfl⟩⟩⟩
  rw [main_asks (e := .nf4) (t := none) h (by omega) (by omega) rfl, if_pos hl, eb']
  simp only
  rw [c2, hrun]

/-- C56 is false: a negative word size is not refused, it has undefined behaviour (a shift by a negative number). -/
theorem C56_negative_word_size {code : String} (hc : code ∈ codeNames) {v k m : Nat} (hv0 : 0 < v) (hv : v ≤ 2 ^ 31) (hn : k + m < 2 ^ 31)
    (pfx : List Char) (env : Env) (fs : Fs) :
    main env [('e', code.toList), ('w', '-' :: Properties.decStr v), ('n', Properties.decStr k), ('m', Properties.decStr m), ('p', pfx), ('c', [])] fs =
      (fs, .raised .ub) := by
  obtain ⟨e, t, he, _⟩ := code_of hc
  have hd := Properties.decStr_digits v
  have ht := (Properties.takeWhile_all (r := []) hd (by simp)).1
  rw [List.append_nil] at ht
  have hs : stoi ('-' :: Properties.decStr v) = .ok (-(v : Int)) := by
    unfold stoi
    have h1 : ('-' :: Properties.decStr v).dropWhile Properties.isSpace = '-' :: Properties.decStr v :=
      List.dropWhile_cons_of_neg (by decide)
    simp only [h1]
    have h2 : Properties.splitSign ('-' :: Properties.decStr v) = (true, Properties.decStr v) := rfl
    simp only [h2, ht, Properties.decVal_decStr]
    rw [if_neg (by simp [Properties.decStr_ne_nil])]
    simp only [if_true]
    rw [if_neg (by omega)]
  have hu : toInt (toUnsigned (-(v : Int))) = -(v : Int) := by
    unfold toInt toUnsigned
    have : (-(v : Int)) % 2 ^ 32 = 2 ^ 32 - v := by omega
    rw [this]
    have h3 : ((2 : Int) ^ 32 - v).toNat = 2 ^ 32 - v := by omega
    rw [h3, if_neg (by omega)]
    omega
  unfold main options
  rw [option_e, he]
  simp only [options, option_w, option_n, option_m, option_p, option_c, hs, stoi_decStr (show k < 2 ^ 31 by omega),
    stoi_decStr (show m < 2 ^ 31 by omega)]
  unfold dispatch
  simp only [hu]
  rw [if_neg (by simp), if_neg (by omega)]
  have : check ((k : Int) + m) (-(v : Int)) e = ub := by
    unfold check
    rw [if_neg (by omega), if_pos (by omega)]
  rw [this]

/-! ## The hypotheses can be met -/

example : Asks [('e', "rs-fnt".toList), ('n', ['1', '0']), ('m', ['6']), ('w', ['2']), ('p', ['x', 'y']), ('v', []), ('c', [])] "rs-fnt" 2 10 6
    ['x', 'y'] false :=
  ⟨by decide, ⟨by decide, by simp⟩, ⟨by decide +kernel, by simp; decide +kernel⟩, ⟨by decide +kernel, by simp; decide +kernel⟩,
    ⟨by decide +kernel, by simp; decide +kernel⟩, ⟨by decide, by simp⟩, by decide, by decide⟩

example : Wrong [('e', "rs-fnt".toList), ('n', ['1', '0']), ('m', ['6']), ('w', ['2']), ('c', [])] := .missing (c := 'p') (by decide) (by decide)

example : ∃ data T, StreamData 2 10 data T ∧ T ≤ 2 ^ 64 ∧ 0 < T :=
  ⟨Array.replicate 10 [1, 2, 3, 4, 5, 6], 3, ⟨by simp, fun i hi => by rw [gt_replicate hi]; rfl, fun i hi => by rw [gt_replicate hi]; decide⟩,
    by norm_num, by norm_num⟩

example : ∃ data T, Gf2nData 4 3 data T ∧ 0 < T :=
  ⟨Array.replicate 3 [1, 2, 3, 4, 5], 1, ⟨by simp, fun i hi => by rw [gt_replicate hi]; decide, fun i hi => by rw [gt_replicate hi]; decide,
    ⟨0, by norm_num, by rw [gt_replicate (by norm_num)]; decide⟩⟩, by norm_num⟩

example : EnvOk ⟨some 32, fun i => i, fun i => 7 * i, fun _ i => i, fun _ _ i => i, #[], fun _ i => i, fun _ i => i, fun _ _ i => i, fun _ _ i => i⟩ :=
  .inr (.inr rfl)

end Quad.Props
