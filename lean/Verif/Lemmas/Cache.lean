import Verif.Spec.Cache
import Verif.Lemmas.Property
import Verif.Props.Ring

/-! # Lemmas for the cached table of roots -/

namespace Quad.Cache

open Properties

theorem decVal_append (a c : List Char) : decVal (a ++ c) = decVal a * 10 ^ c.length + decVal c := by
  have key : ∀ (c : List Char) (x : Nat), c.foldl (fun a c => a * 10 + (c.toNat - 48)) x =
      x * 10 ^ c.length + c.foldl (fun a c => a * 10 + (c.toNat - 48)) 0 := by
    intro c
    induction c with
    | nil => intro x; simp
    | cons d c ih =>
      intro x
      rw [List.foldl_cons, ih, List.foldl_cons, ih (0 * 10 + (d.toNat - 48)), List.length_cons, pow_succ]
      ring
  unfold decVal
  rw [List.foldl_append, key]

theorem decVal_lt {c : List Char} (h : ∀ x ∈ c, isDigit x = true) : decVal c < 10 ^ c.length := by
  induction c with
  | nil => simp [decVal]
  | cons d c ih =>
    have h1 : isDigit d = true := h d (by simp)
    have h2 := ih (fun x hx => h x (by simp [hx]))
    simp only [isDigit, Bool.and_eq_true, decide_eq_true_eq] at h1
    have e := decVal_append [d] c
    simp only [List.singleton_append] at e
    rw [e, List.length_cons, pow_succ]
    have : decVal [d] ≤ 9 := by simp [decVal]; omega
    nlinarith

/-- the first `k` digits of a number -/
theorem decVal_take (v k : Nat) : decVal ((decStr v).take k) = v / 10 ^ ((decStr v).length - k) := by
  have h := decVal_append ((decStr v).take k) ((decStr v).drop k)
  rw [List.take_append_drop, decVal_decStr, List.length_drop] at h
  have hl := decVal_lt (c := (decStr v).drop k) (fun x hx => decStr_digits v x (List.mem_of_mem_drop hx))
  rw [List.length_drop] at hl
  conv_rhs => rw [show v / 10 ^ ((decStr v).length - k) = (decVal ((decStr v).take k) * 10 ^ ((decStr v).length - k) +
    decVal ((decStr v).drop k)) / 10 ^ ((decStr v).length - k) from congrArg (· / 10 ^ ((decStr v).length - k)) h]
  rw [Nat.mul_comm, Nat.mul_add_div (by positivity), Nat.div_eq_of_lt hl, Nat.add_zero]

/-- neither a digit nor white space comes next -/
def Stop (s : List Char) : Prop := ∀ c ∈ s.head?, isDigit c = false ∧ isSpace c = false

theorem takeWhile_stop {f : Char → Bool} {s : List Char} (h : ∀ c ∈ s.head?, f c = false) : s.takeWhile f = [] := by
  cases s with
  | nil => rfl
  | cons c s => rw [List.takeWhile_cons, h c (by simp)]; rfl

theorem dropWhile_stop {f : Char → Bool} {s : List Char} (h : ∀ c ∈ s.head?, f c = false) : s.dropWhile f = s := by
  cases s with
  | nil => rfl
  | cons c s => rw [List.dropWhile_cons, h c (by simp)]; rfl

theorem takeWhile_app {f : Char → Bool} {d s : List Char} (hd : ∀ c ∈ d, f c = true) (h : ∀ c ∈ s.head?, f c = false) :
    (d ++ s).takeWhile f = d ∧ (d ++ s).dropWhile f = s := by
  induction d with
  | nil => exact ⟨takeWhile_stop h, dropWhile_stop h⟩
  | cons c d ih =>
    obtain ⟨i1, i2⟩ := ih (fun x hx => hd x (by simp [hx]))
    have := hd c (by simp)
    simp only [List.cons_append, List.takeWhile_cons, List.dropWhile_cons, this, if_true, i1, i2, and_self]

theorem extract_none {b : Nat} {sp s : List Char} (hsp : ∀ c ∈ sp, isSpace c = true) (h : Stop s) : extract b (sp ++ s) = none := by
  simp only [extract, (takeWhile_app hsp (fun c hc => (h c hc).2)).2, takeWhile_stop (fun c hc => (h c hc).1)]
  rfl

theorem extract_some {b : Nat} {sp d s : List Char} (hsp : ∀ c ∈ sp, isSpace c = true) (hd : ∀ c ∈ d, isDigit c = true)
    (hne : d ≠ []) (hv : decVal d < 2 ^ b) (hs : ∀ c ∈ s.head?, isDigit c = false) :
    extract b (sp ++ (d ++ s)) = some (decVal d, s) := by
  have h0 : ∀ c ∈ (d ++ s).head?, isSpace c = false := by
    cases d with
    | nil => exact absurd rfl hne
    | cons c d =>
      intro x hx
      simp at hx
      subst hx
      exact (isDigit_spec (hd c (by simp))).2.1
  simp only [extract, (takeWhile_app hsp h0).2, (takeWhile_app hd hs).1, (takeWhile_app hd hs).2]
  cases d with
  | nil => exact absurd rfl hne
  | cons c d => simp [hv]

/-- the values read from the first `k` bytes of the text of `vs` -/
def cut : List Nat → Nat → List Nat
  | [], _ => []
  | v :: vs, k =>
    if k = 0 then []
    else if k ≤ (decStr v).length then [v / 10 ^ ((decStr v).length - k)]
    else v :: cut vs (k - (decStr v).length - 1)

theorem text_cons (v : Nat) (vs : List Nat) : text (v :: vs) = decStr v ++ '\n' :: text vs := by
  simp [text]

theorem valuesF_cut {b : Nat} {rest : List Char} (hr : Stop rest) : ∀ (vs : List Nat) (k fuel : Nat) (sp : List Char),
    (∀ v ∈ vs, v < 2 ^ b) → (∀ c ∈ sp, isSpace c = true) → ((text vs).take k).length ≤ fuel →
    valuesF b fuel (sp ++ ((text vs).take k ++ rest)) = cut vs k := by
  intro vs
  induction vs with
  | nil =>
    intro k fuel sp _ hsp _
    cases fuel with
    | zero => rfl
    | succ fuel => simp only [text, List.flatMap_nil, List.take_nil, List.nil_append, valuesF, extract_none hsp hr, cut]
  | cons v vs ih =>
    intro k fuel sp hv hsp hf
    have hne := decStr_ne_nil v
    have hpos : 0 < (decStr v).length := List.length_pos_iff.2 hne
    unfold cut
    by_cases k0 : k = 0
    · subst k0
      rw [if_pos rfl]
      cases fuel with
      | zero => rfl
      | succ fuel => simp only [List.take_zero, List.nil_append, valuesF, extract_none hsp hr]
    rw [if_neg k0]
    have hlt : v < 2 ^ b := hv v (by simp)
    cases fuel with
    | zero =>
      exfalso
      rw [text_cons, List.length_take, List.length_append] at hf
      omega
    | succ fuel =>
      by_cases hk : k ≤ (decStr v).length
      · rw [if_pos hk]
        have e : (text (v :: vs)).take k = (decStr v).take k := by
          rw [text_cons, List.take_append_of_le_length hk]
        have hd : ∀ c ∈ (decStr v).take k, isDigit c = true := fun c hc => decStr_digits v c (List.mem_of_mem_take hc)
        have hn : (decStr v).take k ≠ [] := by
          intro q
          have := congrArg List.length q
          rw [List.length_take, List.length_nil] at this
          omega
        have hval := decVal_take v k
        have hlt' : decVal ((decStr v).take k) < 2 ^ b := by rw [hval]; exact lt_of_le_of_lt (Nat.div_le_self _ _) hlt
        have hle : v / 10 ^ ((decStr v).length - k) ≤ v := Nat.div_le_self _ _
        rw [e, valuesF, extract_some hsp hd hn hlt' (fun c hc => (hr c hc).1), hval]
        show _ :: valuesF b fuel rest = _
        have := extract_none (b := b) (sp := []) (by simp) hr
        rw [List.nil_append] at this
        cases fuel with
        | zero => rfl
        | succ fuel => rw [valuesF, this]
      · rw [if_neg hk]
        have e : (text (v :: vs)).take k = decStr v ++ '\n' :: (text vs).take (k - (decStr v).length - 1) := by
          rw [text_cons, List.take_append, List.take_of_length_le (by omega)]
          congr 1
          rw [show k - (decStr v).length = (k - (decStr v).length - 1) + 1 by omega, List.take_succ_cons]
          rfl
        have hd : ∀ c ∈ decStr v, isDigit c = true := decStr_digits v
        have hval := decVal_decStr v
        rw [e] at hf
        rw [List.length_append, List.length_cons] at hf
        rw [e, List.append_assoc, valuesF, extract_some hsp hd hne (by omega) (by
          intro c hc
          simp at hc
          subst hc
          rfl), hval]
        show _ :: valuesF b fuel (['\n'] ++ ((text vs).take _ ++ rest)) = _
        rw [ih _ fuel ['\n'] (fun x hx => hv x (by simp [hx])) (by simp [isSpace]) (by omega)]

theorem values_cut {b k : Nat} {rest : List Char} (hr : Stop rest) {vs : List Nat} (hv : ∀ v ∈ vs, v < 2 ^ b) :
    values b ((text vs).take k ++ rest) = cut vs k := by
  unfold values
  have := valuesF_cut (b := b) hr vs k ((text vs).take k ++ rest).length [] hv (by simp) (by simp)
  simpa using this

theorem cut_length_le (vs : List Nat) (k : Nat) : (cut vs k).length ≤ vs.length := by
  induction vs generalizing k with
  | nil => simp [cut]
  | cons v vs ih =>
    unfold cut
    split
    · simp
    · split
      · simp
      · simpa using ih _

theorem text_length_cons (v : Nat) (vs : List Nat) : (text (v :: vs)).length = (decStr v).length + 1 + (text vs).length := by
  rw [text_cons, List.length_append, List.length_cons]; omega

/-- when the last value `v` of a table is read from the first `k` bytes, and what is read then -/
theorem cut_snoc (vs : List Nat) (v k : Nat) :
    (k ≤ (text vs).length → (cut (vs ++ [v]) k).length < vs.length + 1) ∧
    ((text vs).length < k → cut (vs ++ [v]) k = vs ++ [v / 10 ^ ((decStr v).length - (k - (text vs).length))]) := by
  induction vs generalizing k with
  | nil =>
    have t : (text []).length = 0 := rfl
    simp only [List.nil_append, cut, t, List.length_nil]
    constructor
    · intro h; rw [if_pos (by omega)]; simp
    · intro h
      rw [if_neg (by omega)]
      split
      · rfl
      · rw [show (decStr v).length - (k - 0) = 0 by omega]; simp
  | cons u vs ih =>
    rw [text_length_cons, List.cons_append]
    simp only [cut]
    constructor
    · intro h
      split
      · simp
      · split
        · simp
        · have := (ih (k - (decStr u).length - 1)).1 (by omega)
          simpa using this
    · intro h
      rw [if_neg (by omega), if_neg (by omega), (ih (k - (decStr u).length - 1)).2 (by omega)]
      rw [show k - (decStr u).length - 1 - (text vs).length = k - ((decStr u).length + 1 + (text vs).length) by omega]
      rfl

theorem cut_full {vs : List Nat} {k : Nat} (h : (text vs).length ≤ k) : cut vs k = vs := by
  induction vs generalizing k with
  | nil => rfl
  | cons v vs ih =>
    rw [text_length_cons] at h
    unfold cut
    rw [if_neg (by omega), if_neg (by omega), ih (by omega)]

/-! ### the table -/

open RingModN in
theorem readCache_short (n : Nat) : ∀ (vs : List Nat) (i : Nat) (W : Array Nat), i + vs.length < n → n ≤ W.size →
    Obj.readCache n vs i W = .error .assertFail := by
  intro vs
  induction vs with
  | nil =>
    intro i W h _
    simp at h
    simp only [Obj.readCache, cassert, decide_eq_false (show ¬ i = n by omega)]
    rfl
  | cons v vs ih =>
    intro i W h hn
    simp only [List.length_cons] at h
    simp only [Obj.readCache, cassert, decide_eq_true (show i < W.size by omega), if_true, ok_bind, wr_ok (show i < W.size by omega)]
    exact ih (i + 1) _ (by omega) (by simpa using hn)

/-! ### files -/

/-- every byte is that of the text, or zero -/
def Holey (T g : List Char) : Prop := ∀ (j : Nat) (c : Char), g[j]? = some c → c = Char.ofNat 0 ∨ T[j]? = some c

theorem Holey.split {T g : List Char} (h : Holey T g) : ∃ k rest, g = T.take k ++ rest ∧ Stop rest := by
  induction g generalizing T with
  | nil => exact ⟨0, [], by simp, by simp [Stop]⟩
  | cons c g ih =>
    by_cases z : c = Char.ofNat 0
    · refine ⟨0, c :: g, by simp, ?_⟩
      intro x hx
      simp at hx
      subst hx
      rw [z]
      exact ⟨by decide, by decide⟩
    · have h0 := h 0 c (by simp)
      cases T with
      | nil => simp [z] at h0
      | cons t T =>
        simp [z] at h0
        subst h0
        obtain ⟨k, rest, e, hs⟩ := ih (T := T) (fun j x hx => by
          have := h (j + 1) x (by simpa using hx)
          simpa using this)
        exact ⟨k + 1, rest, by rw [e]; rfl, hs⟩

theorem Holey.nil (T : List Char) : Holey T [] := by intro j c h; simp at h

theorem pwrite_get (f d : List Char) (off j : Nat) : (pwrite f off d)[j]? =
    if j < off then (if j < f.length then f[j]? else some (Char.ofNat 0))
    else if j < off + d.length then d[j - off]? else f[j]? := by
  unfold pwrite
  have l1 : (f.take off ++ List.replicate (off - f.length) (Char.ofNat 0)).length = off := by
    rw [List.length_append, List.length_take, List.length_replicate]; omega
  by_cases h1 : j < off
  · rw [if_pos h1, List.append_assoc, List.getElem?_append_left (by omega)]
    by_cases h2 : j < f.length
    · rw [if_pos h2, List.getElem?_append_left (by rw [List.length_take]; omega), List.getElem?_take_of_lt h1]
    · rw [if_neg h2, List.getElem?_append_right (by rw [List.length_take]; omega), List.getElem?_replicate, if_pos (by rw [List.length_take]; omega)]
  · rw [if_neg h1]
    by_cases h3 : j < off + d.length
    · rw [if_pos h3, List.getElem?_append_left (by rw [List.length_append, l1]; omega), List.getElem?_append_right (by omega), l1]
    · rw [if_neg h3, List.getElem?_append_right (by rw [List.length_append, l1]; omega), List.length_append, l1, List.getElem?_drop]
      congr 1; omega

theorem pwrite_length (f d : List Char) (off : Nat) : (pwrite f off d).length = max f.length (off + d.length) := by
  unfold pwrite
  simp only [List.length_append, List.length_take, List.length_replicate, List.length_drop]
  omega

theorem chunk_get {T : List Char} {off k j : Nat} (h : off + k ≤ T.length) (h1 : off ≤ j) (h2 : j < off + k) :
    ((T.drop off).take k)[j - off]? = T[j]? := by
  rw [List.getElem?_take_of_lt (by omega), List.getElem?_drop]
  congr 1; omega

theorem chunk_length {T : List Char} {off k : Nat} (h : off + k ≤ T.length) : ((T.drop off).take k).length = k := by
  rw [List.length_take, List.length_drop]; omega

/-- what holds of every state: the process that opened the file last has put its bytes there -/
structure Inv (T : List Char) (s : St) : Prop where
  absent : s.file = none → ∀ i, s.pc i = .start ∨ s.pc i = .opening
  holey : ∀ f, s.file = some f → Holey T f ∧ f.length ≤ T.length ∧
    ∃ L off, (s.pc L = .writing off ∨ (s.pc L = .closed ∧ off = T.length)) ∧ ∀ j, j < off → f[j]? = T[j]?
  off : ∀ i off, s.pc i = .writing off → off ≤ T.length
  got : ∀ i g, (s.pc i = .reading g ∨ s.pc i = .readDone g) → Holey T g

theorem at_pc (s : St) (i j : Nat) (f : Option (List Char)) (c : Pc) : (s.at i f c).pc j = if j = i then c else s.pc j := rfl

/-- process `L` is not the one that moves -/
theorem inv_other {T : List Char} {s : St} (h : Inv T s) {i : Nat} {f : List Char} {c : Pc} (hf : s.file = some f)
    (h1 : ∀ off, s.pc i ≠ .writing off) (h2 : s.pc i ≠ .closed) (h3 : ∀ off, c ≠ .writing off)
    (h4 : ∀ g, (c = .reading g ∨ c = .readDone g) → Holey T g) : Inv T (s.at i (some f) c) := by
  refine ⟨fun q => (nomatch q), fun f' q => ?_, fun j off q => ?_, fun j g q => ?_⟩
  · cases q
    obtain ⟨a, a', L, off, hL, e⟩ := h.holey f hf
    refine ⟨a, a', L, off, ?_, e⟩
    rw [at_pc, if_neg]
    · exact hL
    · rintro rfl
      rcases hL with hL | hL
      · exact h1 _ hL
      · exact h2 hL.1
  · rw [at_pc] at q
    split at q
    · exact absurd q (h3 _)
    · exact h.off j off q
  · rw [at_pc] at q
    split at q
    · exact h4 g q
    · exact h.got j g q

theorem Inv.step {T : List Char} {i : Nat} {s s' : St} (h : Inv T s) (st : Step T i s s') : Inv T s' := by
  cases st with
  | absent _ _ hp hf =>
    refine ⟨fun _ j => ?_, fun f q => (nomatch q), fun j off q => ?_, fun j g q => ?_⟩
    · rw [at_pc]
      split
      · exact Or.inr rfl
      · exact h.absent hf j
    · rw [at_pc] at q
      split at q
      · cases q
      · exact h.off j off q
    · rw [at_pc] at q
      split at q
      · rcases q with q | q <;> cases q
      · exact h.got j g q
  | present _ _ f hp hf =>
    refine inv_other h hf (fun off q => ?_) (fun q => ?_) (fun off q => (nomatch q)) (fun g q => ?_)
    · rw [hp] at q; cases q
    · rw [hp] at q; cases q
    · rcases q with q | q <;> cases q
      exact Holey.nil T
  | create _ _ hp =>
    refine ⟨fun q => (nomatch q), fun f q => ?_, fun j off q => ?_, fun j g q => ?_⟩
    · cases q
      exact ⟨Holey.nil T, by simp, i, 0, Or.inl (by rw [at_pc, if_pos rfl]), fun j hj => by omega⟩
    · rw [at_pc] at q
      split at q
      · cases q; omega
      · exact h.off j off q
    · rw [at_pc] at q
      split at q
      · rcases q with q | q <;> cases q
      · exact h.got j g q
  | write _ _ off k f hp hf _ hk =>
    have cl := chunk_length hk
    obtain ⟨a, a', L, o, hL, e⟩ := h.holey f hf
    refine ⟨fun q => (nomatch q), fun f' q => ?_, fun j off' q => ?_, fun j g q => ?_⟩
    · cases q
      refine ⟨fun j c hc => ?_, ?_, ?_⟩
      · rw [pwrite_get, cl] at hc
        split at hc
        · split at hc
          · exact a j c hc
          · simp at hc; exact Or.inl hc.symm
        · split at hc
          · rw [chunk_get hk (by omega) (by assumption)] at hc; exact Or.inr hc
          · exact a j c hc
      · rw [pwrite_length, cl]; omega
      · have ho : o ≤ T.length := by
          rcases hL with hL | hL
          · exact h.off L o hL
          · omega
        have key : ∀ j, j < o → (pwrite f off ((T.drop off).take k))[j]? = T[j]? := by
          intro j hj
          have hf' := e j hj
          have : j < f.length := by
            rcases Nat.lt_or_ge j f.length with q | q
            · exact q
            · rw [List.getElem?_eq_none q] at hf'
              have := List.getElem?_eq_none_iff.1 hf'.symm
              omega
          rw [pwrite_get, cl]
          split
          · exact hf'
          · split
            · exact chunk_get hk (by omega) (by assumption)
            · exact hf'
        by_cases q : L = i
        · subst q
          have : o = off := by
            rcases hL with hL | hL
            · rw [hp] at hL; cases hL; rfl
            · rw [hp] at hL; cases hL.1
          subst this
          refine ⟨L, o + k, Or.inl (by rw [at_pc, if_pos rfl]), fun j hj => ?_⟩
          by_cases hj' : j < o
          · exact key j hj'
          · rw [pwrite_get, cl, if_neg hj', if_pos hj]
            exact chunk_get hk (by omega) hj
        · exact ⟨L, o, by rw [at_pc, if_neg q]; exact hL, key⟩
    · rw [at_pc] at q
      split at q
      · cases q; exact hk
      · exact h.off j off' q
    · rw [at_pc] at q
      split at q
      · rcases q with q | q <;> cases q
      · exact h.got j g q
  | close _ _ hp =>
    refine ⟨fun q => ?_, fun f q => ?_, fun j off q => ?_, fun j g q => ?_⟩
    · have := h.absent q i
      rw [hp] at this
      rcases this with t | t <;> cases t
    · obtain ⟨a, a', L, o, hL, e⟩ := h.holey f q
      refine ⟨a, a', ?_⟩
      by_cases q : L = i
      · subst q
        have : o = T.length := by
          rcases hL with hL | hL
          · rw [hp] at hL; cases hL; rfl
          · exact hL.2
        exact ⟨L, o, Or.inr ⟨by rw [at_pc, if_pos rfl], this⟩, e⟩
      · exact ⟨L, o, by rw [at_pc, if_neg q]; exact hL, e⟩
    · rw [at_pc] at q
      split at q
      · cases q
      · exact h.off j off q
    · rw [at_pc] at q
      split at q
      · rcases q with q | q <;> cases q
      · exact h.got j g q
  | read _ _ k got f hp hf =>
    refine inv_other h hf (fun off q => ?_) (fun q => ?_) (fun off q => (nomatch q)) (fun g q => ?_)
    · rw [hp] at q; cases q
    · rw [hp] at q; cases q
    · rcases q with q | q <;> cases q
      intro j c hc
      by_cases hj : j < got.length
      · rw [List.getElem?_append_left hj] at hc
        exact h.got i got (Or.inl hp) j c hc
      · rw [List.getElem?_append_right (by omega)] at hc
        have := List.getElem?_eq_some_iff.1 hc
        obtain ⟨hlt, _⟩ := this
        rw [List.length_take] at hlt
        rw [List.getElem?_take_of_lt (by omega), List.getElem?_drop, show got.length + (j - got.length) = j by omega] at hc
        exact (h.holey f hf).1 j c hc
  | eof _ _ got f hp hf hl =>
    refine inv_other h hf (fun off q => ?_) (fun q => ?_) (fun off q => (nomatch q)) (fun g q => ?_)
    · rw [hp] at q; cases q
    · rw [hp] at q; cases q
    · rcases q with q | q <;> cases q
      exact h.got i got (Or.inl hp)

theorem Reach.inv {T : List Char} {s : St} (h : Reach T s) : Inv T s := by
  induction h with
  | init => exact ⟨fun _ _ => Or.inl rfl, fun f q => (nomatch q), fun i off q => (nomatch q), fun i g q => by rcases q with q | q <;> cases q⟩
  | step _ st ih => exact ih.step st

/-- processes that come to a file nobody is writing: the file stays, and they read it -/
theorem steps_read {T f : List Char} {s s' : St} (hf : s.file = some f) {P : Nat → Prop}
    (hP : ∀ i, P i → s.pc i ≠ .opening ∧ ∀ off, s.pc i ≠ .writing off)
    (st : Steps T P s s') : s'.file = some f ∧
      (∀ i, P i → s'.pc i ≠ .opening ∧ ∀ off, s'.pc i ≠ .writing off) ∧
      ∀ i, s.pc i = .start → s'.pc i = .start ∨ (∃ k, s'.pc i = .reading (f.take k)) ∨ s'.pc i = .readDone f := by
  induction st with
  | refl => exact ⟨hf, hP, fun i h => Or.inl h⟩
  | @step i s' s'' _ hi st ih =>
    obtain ⟨i1, i2, i3⟩ := ih
    have keep : ∀ (c : Pc), c ≠ .opening → (∀ off, c ≠ .writing off) →
        ∀ j, P j → (s'.at i (some f) c).pc j ≠ .opening ∧ ∀ off, (s'.at i (some f) c).pc j ≠ .writing off := by
      intro c h1 h2 j hj
      rw [at_pc]
      split
      · exact ⟨h1, h2⟩
      · exact i2 j hj
    have kept : ∀ (c : Pc), (s.pc i = .start → c = .start ∨ (∃ k, c = .reading (f.take k)) ∨ c = .readDone f) →
        ∀ j, s.pc j = .start → (s'.at i (some f) c).pc j = .start ∨ (∃ k, (s'.at i (some f) c).pc j = .reading (f.take k)) ∨
          (s'.at i (some f) c).pc j = .readDone f := by
      intro c h j hj
      rw [at_pc]
      split
      · rename_i q; rw [q] at hj; exact h hj
      · exact i3 j hj
    cases st with
    | absent _ _ _ q => rw [i1] at q; cases q
    | present _ _ f' _ q =>
      rw [i1] at q; cases q
      exact ⟨rfl, keep _ (fun q => nomatch q) (fun _ q => nomatch q), kept _ (fun _ => Or.inr (Or.inl ⟨0, by simp⟩))⟩
    | create _ _ q => exact absurd q (i2 i hi).1
    | write _ _ off k f' q => exact absurd q ((i2 i hi).2 off)
    | close _ _ q => exact absurd q ((i2 i hi).2 _)
    | read _ _ k got f' q1 q =>
      rw [i1] at q; cases q
      refine ⟨rfl, keep _ (fun q => nomatch q) (fun _ q => nomatch q), kept _ (fun h => Or.inr (Or.inl ?_))⟩
      rcases i3 i h with e | ⟨k', e⟩ | e
      · rw [q1] at e; cases e
      · rw [q1] at e
        cases e
        rcases Nat.lt_or_ge k' f.length with hk | hk
        · refine ⟨k' + k, ?_⟩
          rw [List.length_take_of_le (by omega), List.take_add]
        · refine ⟨k', ?_⟩
          rw [List.take_of_length_le hk, List.drop_length]
          simp
      · rw [q1] at e; cases e
    | eof _ _ got f' q1 q hl =>
      rw [i1] at q; cases q
      refine ⟨rfl, keep _ (fun q => nomatch q) (fun _ q => nomatch q), kept _ (fun h => Or.inr (Or.inr ?_))⟩
      rcases i3 i h with e | ⟨k', e⟩ | e
      · rw [q1] at e; cases e
      · rw [q1] at e
        cases e
        rw [List.length_take] at hl
        rw [List.take_of_length_le (by omega)]
      · rw [q1] at e; cases e

end Quad.Cache
