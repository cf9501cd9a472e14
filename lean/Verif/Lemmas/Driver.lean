import Verif.Spec.Driver
import Verif.Lemmas.Property
import Verif.Lemmas.BufOps
import Mathlib.Data.List.FinRange

/-!
# The program that codes and repairs files
-/

namespace Quad.Driver
open Quad.Spec

/-! ## Names -/

theorem isDigit_zero : Properties.isDigit '0' = true := by decide

theorem pad_digits (z i : Nat) : ∀ c ∈ pad z (Properties.decStr i), Properties.isDigit c = true := by
  intro c hc
  unfold pad at hc
  rcases List.mem_append.1 hc with h | h
  · rw [List.eq_of_mem_replicate h]; exact isDigit_zero
  · exact Properties.decStr_digits i c h

theorem decVal_replicate (n : Nat) (s : List Char) : Properties.decVal (List.replicate n '0' ++ s) = Properties.decVal s := by
  unfold Properties.decVal
  rw [List.foldl_append]
  congr 1
  induction n with
  | zero => rfl
  | succ n ih =>
    rw [List.replicate_succ, List.foldl_cons]
    exact ih

theorem decVal_pad (z i : Nat) : Properties.decVal (pad z (Properties.decStr i)) = i := by
  unfold pad
  rw [decVal_replicate, Properties.decVal_decStr]

/-- extensions in use do not start with a digit -/
def ExtOk (e : List Char) : Prop := ∀ c ∈ e.head?, Properties.isDigit c = false

theorem get_filename_inj {pfx : List Char} {t t' : Char} {z z' i i' : Nat} {e e' : List Char} (he : ExtOk e) (he' : ExtOk e')
    (h : get_filename pfx t z i e = get_filename pfx t' z' i' e') : t = t' ∧ i = i' ∧ e = e' := by
  unfold get_filename at h
  simp only [List.append_assoc, List.cons_append, List.nil_append] at h
  have h1 := List.append_cancel_left h
  injection h1 with _ h2
  injection h2 with h3 h4
  have h5 := congrArg (List.takeWhile Properties.isDigit) h4
  rw [(Properties.takeWhile_all (pad_digits z i) he).1, (Properties.takeWhile_all (pad_digits z' i') he').1] at h5
  have h6 := congrArg Properties.decVal h5
  rw [decVal_pad, decVal_pad] at h6
  rw [h5] at h4
  exact ⟨h3, h6, List.append_cancel_left h4⟩

theorem extNil : ExtOk [] := by intro c hc; simp at hc
theorem extProps : ExtOk ".props".toList := by
  intro c hc
  have : c = '.' := by simpa using hc.symm
  subst this; decide

theorem Names.d_inj {N : Names} {i j : Nat} (h : N.d i = N.d j) : i = j := (get_filename_inj extNil extNil h).2.1
theorem Names.c_inj {N : Names} {i j : Nat} (h : N.c i = N.c j) : i = j := (get_filename_inj extNil extNil h).2.1
theorem Names.p_inj {N : Names} {i j : Nat} (h : N.p i = N.p j) : i = j := (get_filename_inj extProps extProps h).2.1
theorem Names.d_ne_c {N : Names} {i j : Nat} : N.d i ≠ N.c j := fun h =>
  absurd (get_filename_inj extNil extNil h).1 (by decide)
theorem Names.d_ne_p {N : Names} {i j : Nat} : N.d i ≠ N.p j := fun h =>
  absurd (get_filename_inj extNil extProps h).1 (by decide)
theorem Names.c_ne_p {N : Names} {i j : Nat} : N.c i ≠ N.p j := fun h =>
  absurd (get_filename_inj extNil extProps h).2.2 (by decide)

/-! ## The loops over files -/

theorem put_self (fs : Fs) (n : Name) (s : List Nat) : put fs n s n = some s := by simp [put]
theorem put_ne {fs : Fs} {n x : Name} {s : List Nat} (h : x ≠ n) : put fs n s x = fs x := by simp [put, h]

variable {N : Names}

theorem openCoding_succ (n : Nat) (fs : Fs) :
    openCoding N (n + 1) fs = put (put (openCoding N n fs) (N.c n) []) (N.p n) [] := by
  unfold openCoding
  rw [List.range_succ, List.foldl_append]; rfl

theorem openCoding_other {n : Nat} {fs : Fs} {x : Name} (h : ¬ IsCoding N n x) : openCoding N n fs x = fs x := by
  induction n with
  | zero => rfl
  | succ n ih =>
    rw [openCoding_succ, put_ne (fun e => h ⟨n, by omega, Or.inr e⟩), put_ne (fun e => h ⟨n, by omega, Or.inl e⟩)]
    exact ih (fun ⟨f, hf, e⟩ => h ⟨f, by omega, e⟩)

theorem openCoding_coding {n : Nat} {fs : Fs} {x : Name} (h : IsCoding N n x) : openCoding N n fs x = some [] := by
  induction n with
  | zero => obtain ⟨f, hf, _⟩ := h; omega
  | succ n ih =>
    rw [openCoding_succ]
    by_cases h1 : x = N.p n
    · rw [h1, put_self]
    · rw [put_ne h1]
      by_cases h2 : x = N.c n
      · rw [h2, put_self]
      · rw [put_ne h2]
        apply ih
        obtain ⟨f, hf, e⟩ := h
        refine ⟨f, ?_, e⟩
        rcases Nat.lt_succ_iff_lt_or_eq.1 hf with hf | rfl
        · exact hf
        · rcases e with e | e
          · exact absurd e h2
          · exact absurd e h1

theorem closeCoding_succ (n : Nat) (outs : Array (Option (List Nat))) (props : Array Properties) (fs : Fs) :
    closeCoding N (n + 1) outs props fs =
      (match gt outs n with
        | some s => put (put (closeCoding N n outs props fs) (N.p n) (toBytes (gt props n).write)) (N.c n) s
        | none => put (closeCoding N n outs props fs) (N.p n) (toBytes (gt props n).write)) := by
  unfold closeCoding
  rw [List.range_succ, List.foldl_append]; rfl

theorem closeCoding_other {n : Nat} {outs : Array (Option (List Nat))} {props : Array Properties} {fs : Fs} {x : Name}
    (h : ¬ IsCoding N n x) : closeCoding N n outs props fs x = fs x := by
  induction n with
  | zero => rfl
  | succ n ih =>
    have i1 := ih (fun ⟨f, hf, e⟩ => h ⟨f, by omega, e⟩)
    have h1 : x ≠ N.p n := fun e => h ⟨n, by omega, Or.inr e⟩
    have h2 : x ≠ N.c n := fun e => h ⟨n, by omega, Or.inl e⟩
    rw [closeCoding_succ]
    cases gt outs n with
    | none => simp only; rw [put_ne h1]; exact i1
    | some s => simp only; rw [put_ne h2, put_ne h1]; exact i1

theorem closeCoding_at {n : Nat} {outs : Array (Option (List Nat))} {props : Array Properties} {fs : Fs} {frags : Nat → List Nat}
    (ho : ∀ f, f < n → gt outs f = some (frags f)) : ∀ f, f < n →
    closeCoding N n outs props fs (N.c f) = some (frags f) ∧
    closeCoding N n outs props fs (N.p f) = some (toBytes (gt props f).write) := by
  induction n with
  | zero => intro f hf; omega
  | succ n ih =>
    intro f hf
    rw [closeCoding_succ, ho n (by omega)]
    simp only
    by_cases h : f = n
    · subst h
      refine ⟨put_self _ _ _, ?_⟩
      rw [put_ne (Ne.symm Names.c_ne_p), put_self]
    · obtain ⟨i1, i2⟩ := ih (fun f hf => ho f (by omega)) f (by omega)
      constructor
      · rw [put_ne (fun e => h (Names.c_inj e)), put_ne Names.c_ne_p]; exact i1
      · rw [put_ne (Ne.symm Names.c_ne_p), put_ne (fun e => h (Names.p_inj e))]; exact i2

theorem openData_succ (n : Nat) (fs : Fs) :
    openData N (n + 1) fs =
      (match (openData N n fs).1 (N.d n) with
        | none => (put (openData N n fs).1 (N.d n) [], (openData N n fs).2.push true)
        | some _ => ((openData N n fs).1, (openData N n fs).2.push false)) := by
  unfold openData
  rw [List.range_succ, List.foldl_append]; rfl

theorem openData_other {n : Nat} {fs : Fs} {x : Name} (h : ¬ IsData N n x) : (openData N n fs).1 x = fs x := by
  induction n with
  | zero => rfl
  | succ n ih =>
    have i1 := ih (fun ⟨f, hf, e⟩ => h ⟨f, by omega, e⟩)
    have h1 : x ≠ N.d n := fun e => h ⟨n, by omega, e⟩
    rw [openData_succ]
    split
    · simp only; rw [put_ne h1]; exact i1
    · exact i1

theorem openData_size (n : Nat) (fs : Fs) : (openData N n fs).2.size = n := by
  induction n with
  | zero => rfl
  | succ n ih =>
    rw [openData_succ]
    split <;> simp [ih]

theorem gt_push {α : Type} [Inhabited α] {a : Array α} {x : α} {i : Nat} (h : i ≤ a.size) : gt (a.push x) i = if i = a.size then x else gt a i := by
  unfold gt
  split
  · rename_i e; subst e; simp
  · rename_i e
    have : i < a.size := by omega
    simp [Array.getElem?_push, e]

theorem openData_at {n : Nat} {fs : Fs} : ∀ i, i < n →
    (openData N n fs).1 (N.d i) = some ((fs (N.d i)).getD []) ∧ gt (openData N n fs).2 i = (fs (N.d i)).isNone := by
  induction n with
  | zero => intro i hi; omega
  | succ n ih =>
    intro i hi
    have hs := openData_size (N := N) n fs
    have hn : (openData N n fs).1 (N.d n) = fs (N.d n) :=
      openData_other (fun ⟨f, hf, e⟩ => by have := Names.d_inj e; omega)
    rw [openData_succ, hn]
    by_cases h : i = n
    · subst h
      cases hf : fs (N.d i) with
      | none => simp only; rw [put_self, gt_push (by omega), if_pos hs.symm]; exact ⟨rfl, rfl⟩
      | some s => simp only; rw [hn, hf, gt_push (by omega), if_pos hs.symm]; exact ⟨rfl, rfl⟩
    · obtain ⟨i1, i2⟩ := ih i (by omega)
      cases hf : fs (N.d n) with
      | none =>
        simp only
        rw [put_ne (fun e => h (Names.d_inj e)), gt_push (by omega), if_neg (by omega)]; exact ⟨i1, i2⟩
      | some s =>
        simp only
        rw [gt_push (by omega), if_neg (by omega)]; exact ⟨i1, i2⟩

theorem closeData_succ (n : Nat) (missing : Array Bool) (outs : Array (Option (List Nat))) (fs : Fs) :
    closeData N (n + 1) missing outs fs =
      (if gt missing n then
        match gt outs n with
        | some s => put (closeData N n missing outs fs) (N.d n) s
        | none => closeData N n missing outs fs
      else closeData N n missing outs fs) := by
  unfold closeData
  rw [List.range_succ, List.foldl_append]; rfl

theorem closeData_other {n : Nat} {missing : Array Bool} {outs : Array (Option (List Nat))} {fs : Fs} {x : Name}
    (h : ∀ i, i < n → gt missing i = true → x ≠ N.d i) : closeData N n missing outs fs x = fs x := by
  induction n with
  | zero => rfl
  | succ n ih =>
    have i1 := ih (fun i hi => h i (by omega))
    rw [closeData_succ]
    split
    · rename_i hm
      cases gt outs n with
      | none => exact i1
      | some s => simp only; rw [put_ne (h n (by omega) hm)]; exact i1
    · exact i1

theorem closeData_at {n : Nat} {missing : Array Bool} {outs : Array (Option (List Nat))} {fs : Fs} {i : Nat} {s : List Nat} (hi : i < n)
    (hm : gt missing i = true) (ho : gt outs i = some s) : closeData N n missing outs fs (N.d i) = some s := by
  induction n with
  | zero => omega
  | succ n ih =>
    rw [closeData_succ]
    by_cases h : i = n
    · subst h
      rw [if_pos hm, ho]; exact put_self _ _ _
    · have i1 := ih (by omega)
      split
      · cases gt outs n with
        | none => exact i1
        | some s' => simp only; rw [put_ne (fun e => h (Names.d_inj e))]; exact i1
      · exact i1

/-! ## Properties as text -/

theorem ofBytes_toBytes (s : List Char) : ofBytes (toBytes s) = s := by
  unfold ofBytes toBytes
  rw [List.map_map]
  conv_rhs => rw [← List.map_id s]
  apply List.map_congr_left
  intro c _
  exact Char.ofNat_toNat c

theorem readProps_spec {n : Nat} {fs : Fs} {fprops : Array Properties} (hm : ∀ f, f < n → ∀ it ∈ (gt fprops f).props, it.1 < 2 ^ 64 ∧ it.2 < 2 ^ 32)
    (hfs : ∀ f, f < n → fs (N.p f) = none ∨ fs (N.p f) = some (toBytes (gt fprops f).write)) :
    ∃ props, readProps N n fs = .ok props ∧ props.size = n ∧
      ∀ f, f < n → gt props f = if fs (N.p f) = none then .empty else gt fprops f := by
  unfold readProps
  obtain ⟨props, e, h1, h2, _⟩ := forN_inv (n := n) (s := Array.replicate n Properties.empty) (f := fun i props => do
      match fs (N.p i) with
      | none => pure props
      | some s => do
        let P ← rd props i
        let P ← P.read (ofBytes s)
        wr props i P)
    (I := fun t (props : Array Properties) => props.size = n ∧
      (∀ f, f < t → gt props f = if fs (N.p f) = none then .empty else gt fprops f) ∧ ∀ f, t ≤ f → f < n → gt props f = .empty)
    ⟨by simp, fun f hf => by omega, fun f _ hf => gt_replicate hf⟩ (by
      rintro t props ht ⟨h1, h2, h3⟩
      rcases hfs t ht with h | h
      · refine ⟨props, by simp only [h]; rfl, h1, fun f hf => ?_, fun f hf hf' => h3 f (by omega) hf'⟩
        rcases Nat.lt_succ_iff_lt_or_eq.1 hf with hf | rfl
        · exact h2 f hf
        · rw [h3 f le_rfl ht, if_pos h]
      · have hr : Properties.empty.read (gt fprops t).write = .ok (gt fprops t) := by
          unfold Properties.read
          have := Properties.readF_spec (gt fprops t).props ((gt fprops t).write.length + 1) Properties.empty
            (Nat.lt_succ_of_le (Properties.write_length (gt fprops t).props)) (hm t ht)
          simpa [Properties.empty] using this
        refine ⟨props.setIfInBounds t (gt fprops t), ?_, by simpa using h1, fun f hf => ?_, fun f hf hf' => ?_⟩
        · simp only [h]
          rw [rd_gt (by omega), ok_bind, h3 t le_rfl ht, ofBytes_toBytes, hr, ok_bind, wr_ok (by omega)]
        · rw [gt_set (by omega)]
          rcases Nat.lt_succ_iff_lt_or_eq.1 hf with hf | rfl
          · rw [if_neg (by omega)]; exact h2 f hf
          · rw [if_pos rfl, if_neg (by rw [h]; simp)]
        · rw [gt_set (by omega), if_neg (by omega)]
          exact h3 f (by omega) hf')
  exact ⟨props, e, h1, h2⟩

/-! ## Any code -/

/-- if one is missing then not all are there -/
theorem avail_lt {datas : Array (Option (List Nat))} {k i : Nat} (h1 : datas.size = k) (hi : i < k) (hn : gt datas i = none) : avail datas < k := by
  rcases Nat.lt_or_ge (avail datas) k with h | h
  · exact h
  · exfalso
    unfold avail at h
    have hle := List.countP_le_length (p := Option.isSome) (l := datas.toList)
    have : datas.toList.length = k := by simpa using h1
    have heq : datas.toList.countP Option.isSome = datas.toList.length := by omega
    have := List.countP_eq_length.1 heq (gt datas i) (by
      rw [gt_eq (by omega)]; simp)
    rw [hn] at this; cases this

/-- what the program needs of the code object: `Inv` holds of its state, coding gives `frags` and `fprops`, decoding gives `back` if there is
missing data -/
structure Codes (F : Coder) (Inv : F.σ → Prop) (sys : Bool) (data back frags : Array (List Nat)) (fprops : Array Properties) : Prop where
  dsize : data.size = F.n_data
  fsize : frags.size = F.n_outputs
  psize : fprops.size = F.n_outputs
  flen : ∀ f i, f < F.n_outputs → i < F.n_data → (gt frags f).length = (gt back i).length
  marks : ∀ f, f < F.n_outputs → ∀ it ∈ (gt fprops f).props, it.1 < 2 ^ 64 ∧ it.2 < 2 ^ 32
  enc : ∀ s, Inv s → ∀ d : Array (List Nat), d.size = F.n_data → (∀ i, i < F.n_data → gt d i = gt data i ∨ gt d i = gt back i) →
    ∀ ps : Array Properties, ps.size = F.n_outputs →
    ∃ s', F.enc s d (Array.replicate F.n_outputs []) ps = .ok (frags.map some, fprops, s') ∧ Inv s'
  dec : ∀ s, Inv s → ∀ (datas pars outs : Array (Option (List Nat))) (props : Array Properties),
    datas.size = F.n_data → pars.size = F.n_outputs → props.size = F.n_outputs → outs.size = F.n_data →
    (∀ i t, i < F.n_data → gt datas i = some t → t = gt data i) →
    (∀ f t, f < F.n_outputs → gt pars f = some t → t = gt frags f ∧ gt props f = gt fprops f) →
    (avail datas = F.n_data ∨ F.n_data ≤ (if sys then avail datas else 0) + avail pars) →
    ∃ v o s', F.dec s datas pars props outs = .ok (v, o, s') ∧ Inv s' ∧
      (avail datas < F.n_data → v = true ∧ o.size = F.n_data ∧ ∀ i, i < F.n_data → gt o i = (gt outs i).map (fun t => t ++ gt back i))

variable {F : Coder} {Inv : F.σ → Prop} {sys : Bool} {data back frags : Array (List Nat)} {fprops : Array Properties}

theorem create_spec (h : Codes F Inv sys data back frags fprops) {s : F.σ} (hs : Inv s) {fs : Fs}
    (hfs : ∀ i, i < F.n_data → fs (N.d i) = some (gt data i) ∨ fs (N.d i) = some (gt back i)) :
    ∃ fs' s', create_coding_files F N s fs = (fs', .done s') ∧ Inv s' ∧ CodingFiles N frags fprops fs' ∧
      ∀ x, ¬ IsCoding N F.n_outputs x → fs' x = fs x := by
  have hall : (List.range F.n_data).all (fun i => (fs (N.d i)).isSome) = true := by
    rw [List.all_eq_true]
    intro i hi
    rcases hfs i (List.mem_range.1 hi) with h | h <;> rw [h] <;> rfl
  have hd : ∀ i, ¬ IsCoding N F.n_outputs (N.d i) := fun i ⟨f, _, e⟩ => e.elim Names.d_ne_c Names.d_ne_p
  obtain ⟨s', e, hs'⟩ := h.enc s hs (Array.ofFn (fun i : Fin F.n_data => (openCoding N F.n_outputs fs (N.d i)).getD [])) (by simp)
    (fun i hi => by
      rw [gt_ofFn hi]
      simp only [openCoding_other (hd i)]
      rcases hfs i hi with h | h <;> rw [h] <;> simp) (Array.replicate F.n_outputs .empty) (by simp)
  refine ⟨closeCoding N F.n_outputs (frags.map some) fprops (openCoding N F.n_outputs fs), s', ?_, hs', ?_, ?_⟩
  · unfold create_coding_files
    rw [if_pos hall]
    simp only [e]
  · intro f hf
    rw [h.fsize] at hf
    exact closeCoding_at (frags := gt frags) (fun f hf => by rw [gt_map (by rw [h.fsize]; exact hf)]) f hf
  · intro x hx
    rw [closeCoding_other hx, openCoding_other hx]

theorem avail_ofFn (n : Nat) (g : Nat → Option (List Nat)) :
    avail (Array.ofFn (fun i : Fin n => g i)) = (List.range n).countP (fun i => (g i).isSome) := by
  unfold avail
  rw [Array.toList_ofFn, List.ofFn_eq_map, ← List.map_coe_finRange_eq_range, List.countP_map, List.countP_map]
  rfl

theorem repair_spec (h : Codes F Inv sys data back frags fprops) {s : F.σ} (hs : Inv s) {fs0 fs : Fs} (h1 : DataFiles N data fs0)
    (h2 : CodingFiles N frags fprops fs0) (hl : Lost N F.n_data F.n_outputs fs0 fs) (he : Enough N sys F.n_data F.n_outputs fs) :
    ∃ fs' s', repair_data_files F N s fs = (fs', .done s') ∧ Inv s' ∧
      (∀ i, i < F.n_data → fs' (N.d i) = some (if fs (N.d i) = none then gt back i else gt data i)) ∧
      ∀ x, ¬ IsData N F.n_data x → fs' x = fs x := by
  have hd : ∀ i, i < F.n_data → fs (N.d i) = none ∨ fs (N.d i) = some (gt data i) := fun i hi => by
    rcases hl.data i hi with e | e
    · exact .inl e
    · exact .inr (e.trans (h1 i (by rw [h.dsize]; exact hi)))
  have nc : ∀ f, ¬ IsData N F.n_data (N.c f) := fun f ⟨i, _, e⟩ => Names.d_ne_c e.symm
  have np : ∀ f, ¬ IsData N F.n_data (N.p f) := fun f ⟨i, _, e⟩ => Names.d_ne_p e.symm
  obtain ⟨props, ep, ps, hp⟩ := readProps_spec (N := N) (n := F.n_outputs) (fs := (openData N F.n_data fs).1) (fprops := fprops) h.marks
    (fun f hf => by
      rw [openData_other (np f)]
      rcases hl.props f hf with e | e
      · exact .inl e
      · exact .inr (e.trans (h2 f (by rw [h.fsize]; exact hf)).2))
  have hat := openData_at (N := N) (n := F.n_data) (fs := fs)
  have hdat : ∀ i, i < F.n_data → (if gt (openData N F.n_data fs).2 i = true then none else (openData N F.n_data fs).1 (N.d i)) = fs (N.d i) := by
    intro i hi
    rw [(hat i hi).1, (hat i hi).2]
    cases fs (N.d i) <;> rfl
  have edat : (Array.ofFn (fun i : Fin F.n_data => if gt (openData N F.n_data fs).2 i = true then none else (openData N F.n_data fs).1 (N.d i))) =
      Array.ofFn (fun i : Fin F.n_data => fs (N.d i)) := by
    congr 1; funext i; exact hdat i i.2
  have epar : (Array.ofFn (fun i : Fin F.n_outputs => (openData N F.n_data fs).1 (N.c i))) = Array.ofFn (fun i : Fin F.n_outputs => fs (N.c i)) := by
    congr 1; funext i; exact openData_other (nc i)
  obtain ⟨v, o, s', e, hs', ho⟩ := h.dec s hs (Array.ofFn (fun i : Fin F.n_data => fs (N.d i)))
    (Array.ofFn (fun i : Fin F.n_outputs => fs (N.c i)))
    (Array.ofFn (fun i : Fin F.n_data => if gt (openData N F.n_data fs).2 i = true then some [] else none)) props (by simp) (by simp) ps (by simp)
    (fun i t hi ht => by
      rw [gt_ofFn hi] at ht
      rcases hd i hi with e | e
      · rw [e] at ht; cases ht
      · rw [e] at ht; injection ht with ht; exact ht.symm)
    (fun f t hf ht => by
      rw [gt_ofFn hf] at ht
      simp only at ht
      obtain ⟨q1, q2⟩ := h2 f (by rw [h.fsize]; exact hf)
      rcases hl.coding f hf with e | ⟨e1, e2⟩
      · rw [e] at ht; cases ht
      · rw [e1, q1] at ht; injection ht with ht
        refine ⟨ht.symm, ?_⟩
        rw [hp f hf, openData_other (np f), e2, q2, if_neg (by simp)])
    (by rw [avail_ofFn F.n_data (fun i => fs (N.d i)), avail_ofFn F.n_outputs (fun i => fs (N.c i))]; exact he)
  refine ⟨closeData N F.n_data (openData N F.n_data fs).2 o (openData N F.n_data fs).1, s', ?_, hs', ?_, ?_⟩
  · unfold repair_data_files
    simp only [edat, epar, ep, e]
  · intro i hi
    by_cases hn : fs (N.d i) = none
    · rw [if_pos hn]
      have hm : gt (openData N F.n_data fs).2 i = true := by rw [(hat i hi).2, hn]; rfl
      refine closeData_at hi hm ?_
      rw [(ho (avail_lt (by simp) hi (by rw [gt_ofFn hi]; exact hn))).2.2 i hi, gt_ofFn hi]
      simp only [hm, if_true]
      simp
    · rw [if_neg hn]
      have hm : gt (openData N F.n_data fs).2 i = false := by
        rw [(hat i hi).2]; cases hx : fs (N.d i) with
        | none => exact absurd hx hn
        | some _ => rfl
      rw [closeData_other (fun j hj hj' e => by rw [← Names.d_inj e, hm] at hj'; cases hj'), (hat i hi).1]
      rcases hd i hi with e | e
      · exact absurd e hn
      · rw [e]; rfl
  · intro x hx
    rw [closeData_other (fun j hj _ e => hx ⟨j, hj, e⟩), openData_other hx]

theorem keepsFiles (h : Codes F Inv sys data back frags fprops) (N : Names) {s : F.σ} (hs : Inv s) :
    KeepsFiles F N sys data back frags fprops s where
  fsize := h.fsize
  psize := h.psize
  create := fun fs hfs => by
    obtain ⟨fs', s', e, _, q1, q2⟩ := create_spec (N := N) h hs (fs := fs) (fun i hi => .inl (hfs i (by rw [h.dsize]; exact hi)))
    exact ⟨fs', s', e, q1, q2⟩
  repair := fun fs0 fs h1 h2 hl he => by
    obtain ⟨fs1, s1, e1, i1, p1, p2⟩ := repair_spec h hs h1 h2 hl he
    obtain ⟨fs', s', e, _, q1, q2⟩ := create_spec (N := N) h i1 (fs := fs1) (fun i hi => by
      rw [p1 i hi]
      split
      · exact .inr rfl
      · exact .inl rfl)
    have hd : ∀ i, ¬ IsCoding N F.n_outputs (N.d i) := fun i ⟨f, _, e⟩ => e.elim Names.d_ne_c Names.d_ne_p
    refine ⟨fs', s', ?_, q1, fun i hi => ?_, fun x hx hx' => ?_⟩
    · unfold run
      rw [if_pos rfl, e1]
      exact e
    · rw [q2 _ (hd i), p1 i hi]
    · rw [q2 x hx', p2 x hx]

/-! ## Runs that fail -/

theorem create_other {s : F.σ} {fs : Fs} {x : Name} (hx : ¬ IsCoding N F.n_outputs x) : (create_coding_files F N s fs).1 x = fs x := by
  unfold create_coding_files
  split
  · simp only
    split
    · exact openCoding_other hx
    · simp only; rw [closeCoding_other hx, openCoding_other hx]
  · rfl

theorem create_exit {s : F.σ} {fs : Fs} (h : ∃ i, i < F.n_data ∧ fs (N.d i) = none) : create_coding_files F N s fs = (fs, .exit) := by
  obtain ⟨i, hi, h⟩ := h
  unfold create_coding_files
  rw [if_neg]
  intro hc
  have := List.all_eq_true.1 hc i (List.mem_range.2 hi)
  rw [h] at this
  cases this

theorem repair_present {s : F.σ} {fs : Fs} (h : ∀ i, i < F.n_data → (fs (N.d i)).isSome = true) :
    (repair_data_files F N s fs).1 = fs := by
  have hat := openData_at (N := N) (n := F.n_data) (fs := fs)
  have e : (openData N F.n_data fs).1 = fs := by
    funext x
    by_cases hx : IsData N F.n_data x
    · obtain ⟨i, hi, rfl⟩ := hx
      rw [(hat i hi).1]
      have := h i hi
      cases hv : fs (N.d i) with
      | none => rw [hv] at this; cases this
      | some _ => rfl
    · exact openData_other hx
  have hm : ∀ i, i < F.n_data → gt (openData N F.n_data fs).2 i = false := by
    intro i hi
    rw [(hat i hi).2]
    have := h i hi
    cases hv : fs (N.d i) with
    | none => rw [hv] at this; cases this
    | some _ => rfl
  unfold repair_data_files
  simp only
  split
  · exact e
  · split
    · exact e
    · simp only
      funext x
      rw [closeData_other (fun j hj hj' => by rw [hm j hj] at hj'; cases hj'), e]

theorem run_true_present {s : F.σ} {fs : Fs} (h : ∀ i, i < F.n_data → (fs (N.d i)).isSome = true) (i : Nat) :
    (run F N true s fs).1 (N.d i) = fs (N.d i) := by
  have hn : ¬ IsCoding N F.n_outputs (N.d i) := fun ⟨f, _, e⟩ => e.elim Names.d_ne_c Names.d_ne_p
  have e := repair_present (F := F) (N := N) (s := s) h
  unfold run
  rw [if_pos rfl]
  cases hr : repair_data_files F N s fs with
  | mk fs1 en =>
    rw [hr] at e
    simp only at e
    subst e
    cases en with
    | done s' => exact create_other hn
    | exit => rfl
    | raised e => rfl

/-- what the program can rely on when there are too few fragments: the decoder refuses, and coding with an empty file gives nothing -/
structure Refuses (F : Coder) (Inv : F.σ → Prop) (sys : Bool) (data frags : Array (List Nat)) (fprops : Array Properties) : Prop where
  dsize : data.size = F.n_data
  fsize : frags.size = F.n_outputs
  marks : ∀ f, f < F.n_outputs → ∀ it ∈ (gt fprops f).props, it.1 < 2 ^ 64 ∧ it.2 < 2 ^ 32
  enc : ∀ s, Inv s → ∀ d : Array (List Nat), d.size = F.n_data → (∀ i, i < F.n_data → gt d i = gt data i ∨ gt d i = []) →
    (∃ i, i < F.n_data ∧ gt d i = []) →
    ∃ s', F.enc s d (Array.replicate F.n_outputs []) (Array.replicate F.n_outputs .empty) =
      .ok (Array.replicate F.n_outputs (some []), Array.replicate F.n_outputs .empty, s')
  dec : ∀ s, Inv s → ∀ (datas pars outs : Array (Option (List Nat))) (props : Array Properties),
    datas.size = F.n_data → pars.size = F.n_outputs → props.size = F.n_outputs → outs.size = F.n_data →
    (if sys then avail datas else 0) + avail pars < F.n_data →
    ∃ s', F.dec s datas pars props outs = .ok (false, outs, s') ∧ Inv s'

theorem ruinsFiles (h : Refuses F Inv sys data frags fprops) (N : Names) {s : F.σ} (hs : Inv s) :
    RuinsFiles F N sys data frags fprops s := by
  intro fs0 fs h1 h2 hl hne
  unfold Enough at hne
  have hd : ∀ i, i < F.n_data → fs (N.d i) = none ∨ fs (N.d i) = some (gt data i) := fun i hi => by
    rcases hl.data i hi with e | e
    · exact .inl e
    · exact .inr (e.trans (h1 i (by rw [h.dsize]; exact hi)))
  have hmiss : ∃ i, i < F.n_data ∧ fs (N.d i) = none := by
    by_contra hc
    push Not at hc
    apply hne
    left
    unfold dataLeft
    rw [List.countP_eq_length.2 (fun i hi => ?_), List.length_range]
    have := hc i (List.mem_range.1 hi)
    cases hv : fs (N.d i) with
    | none => exact absurd hv this
    | some _ => rfl
  have nc : ∀ f, ¬ IsData N F.n_data (N.c f) := fun f ⟨i, _, e⟩ => Names.d_ne_c e.symm
  have np : ∀ f, ¬ IsData N F.n_data (N.p f) := fun f ⟨i, _, e⟩ => Names.d_ne_p e.symm
  have nd : ∀ i, ¬ IsCoding N F.n_outputs (N.d i) := fun i ⟨f, _, e⟩ => e.elim Names.d_ne_c Names.d_ne_p
  obtain ⟨props, ep, ps, hp⟩ := readProps_spec (N := N) (n := F.n_outputs) (fs := (openData N F.n_data fs).1) (fprops := fprops) h.marks
    (fun f hf => by
      rw [openData_other (np f)]
      rcases hl.props f hf with e | e
      · exact .inl e
      · exact .inr (e.trans (h2 f (by rw [h.fsize]; exact hf)).2))
  have hat := openData_at (N := N) (n := F.n_data) (fs := fs)
  have hdat : ∀ i, i < F.n_data → (if gt (openData N F.n_data fs).2 i = true then none else (openData N F.n_data fs).1 (N.d i)) = fs (N.d i) := by
    intro i hi
    rw [(hat i hi).1, (hat i hi).2]
    cases fs (N.d i) <;> rfl
  have edat : (Array.ofFn (fun i : Fin F.n_data => if gt (openData N F.n_data fs).2 i = true then none else (openData N F.n_data fs).1 (N.d i))) =
      Array.ofFn (fun i : Fin F.n_data => fs (N.d i)) := by
    congr 1; funext i; exact hdat i i.2
  have epar : (Array.ofFn (fun i : Fin F.n_outputs => (openData N F.n_data fs).1 (N.c i))) = Array.ofFn (fun i : Fin F.n_outputs => fs (N.c i)) := by
    congr 1; funext i; exact openData_other (nc i)
  obtain ⟨s1, e1, hs1⟩ := h.dec s hs (Array.ofFn (fun i : Fin F.n_data => fs (N.d i)))
    (Array.ofFn (fun i : Fin F.n_outputs => fs (N.c i)))
    (Array.ofFn (fun i : Fin F.n_data => if gt (openData N F.n_data fs).2 i = true then some [] else none)) props (by simp) (by simp) ps (by simp)
    (by
      rw [avail_ofFn F.n_data (fun i => fs (N.d i)), avail_ofFn F.n_outputs (fun i => fs (N.c i))]
      by_contra hc
      exact hne (.inr (Nat.not_lt.1 hc)))
  set fs1 := closeData N F.n_data (openData N F.n_data fs).2
    (Array.ofFn (fun i : Fin F.n_data => if gt (openData N F.n_data fs).2 i = true then some [] else none)) (openData N F.n_data fs).1 with hfs1
  have er : repair_data_files F N s fs = (fs1, .done s1) := by
    unfold repair_data_files
    simp only [edat, epar, ep, e1, hfs1]
  have hf1 : ∀ i, i < F.n_data → fs1 (N.d i) = some (if fs (N.d i) = none then [] else gt data i) := by
    intro i hi
    by_cases hn : fs (N.d i) = none
    · rw [if_pos hn]
      have hm : gt (openData N F.n_data fs).2 i = true := by rw [(hat i hi).2, hn]; rfl
      refine closeData_at hi hm ?_
      rw [gt_ofFn hi]
      simp only [hm, if_true]
    · rw [if_neg hn]
      have hm : gt (openData N F.n_data fs).2 i = false := by
        rw [(hat i hi).2]; cases hx : fs (N.d i) with
        | none => exact absurd hx hn
        | some _ => rfl
      rw [hfs1, closeData_other (fun j hj hj' e => by rw [← Names.d_inj e, hm] at hj'; cases hj'), (hat i hi).1]
      rcases hd i hi with e | e
      · exact absurd e hn
      · rw [e]; rfl
  obtain ⟨s2, e2⟩ := h.enc s1 hs1 (Array.ofFn (fun i : Fin F.n_data => (openCoding N F.n_outputs fs1 (N.d i)).getD [])) (by simp)
    (fun i hi => by
      rw [gt_ofFn hi]
      simp only [openCoding_other (nd i), hf1 i hi]
      split
      · right; rfl
      · left; rfl)
    (by
      obtain ⟨i, hi, hn⟩ := hmiss
      refine ⟨i, hi, ?_⟩
      rw [gt_ofFn hi]
      simp only [openCoding_other (nd i), hf1 i hi, if_pos hn]
      rfl)
  have hall : (List.range F.n_data).all (fun i => (fs1 (N.d i)).isSome) = true := by
    rw [List.all_eq_true]
    intro i hi
    rw [hf1 i (List.mem_range.1 hi)]; rfl
  refine ⟨closeCoding N F.n_outputs (Array.replicate F.n_outputs (some [])) (Array.replicate F.n_outputs .empty)
    (openCoding N F.n_outputs fs1), s2, ?_, fun i hi => ?_, fun f hf => ?_⟩
  · unfold run
    rw [if_pos rfl, er]
    simp only
    unfold create_coding_files
    rw [if_pos hall]
    simp only [e2]
  · rw [closeCoding_other (nd i), openCoding_other (nd i)]
    exact hf1 i hi
  · have := closeCoding_at (N := N) (n := F.n_outputs) (outs := Array.replicate F.n_outputs (some [])) (props := Array.replicate F.n_outputs .empty)
      (fs := openCoding N F.n_outputs fs1) (frags := fun _ => []) (fun f hf => gt_replicate hf) f hf
    rw [gt_replicate hf] at this
    exact this

end Quad.Driver
