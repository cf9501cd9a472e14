import Verif.Model.Misc
import Verif.Spec.Misc
import Verif.Lemmas.Buffers
import Mathlib.Tactic.Ring
import Mathlib.Tactic.IntervalCases

/-! # Lemmas on printing -/

namespace Quad.Misc
open Spec

theorem decVal_snoc (s : List Nat) (c : Nat) : decVal (s ++ [c]) = 10 * decVal s + (c - 48) := by
  simp [decVal, List.foldl_append]

theorem decimals_rd {x : Nat} (h : x < 10) : rd decimals x = .ok (48 + x) := by
  interval_cases x <;> rfl

theorem drop_set {a : Array Nat} {d x : Nat} (h : d < a.size) :
    (a.setIfInBounds d x).toList.drop d = x :: a.toList.drop (d + 1) := by
  rw [Array.toList_setIfInBounds]
  rw [List.drop_eq_getElem_cons (by simpa using h)]
  simp [List.drop_set]

/-- the digits of a number are put in front of place `d` -/
theorem digitLoop_spec : ∀ (k d tmp : Nat) (a : Array Nat), 1 ≤ k → k ≤ d → d ≤ a.size → tmp < 10 ^ k →
    ∃ e a' X, digitLoop d tmp a = .ok (e, a') ∧ d ≤ e + k ∧ e < d ∧ a'.size = a.size ∧
      a'.toList.drop e = X ++ a.toList.drop d ∧ Decimal X ∧ decVal X = tmp := by
  intro k
  induction k with
  | zero => intro d tmp a h; omega
  | succ k ih =>
    intro d tmp a _ hkd hd ht
    obtain ⟨d, rfl⟩ : ∃ d', d = d' + 1 := ⟨d - 1, by omega⟩
    unfold digitLoop
    rw [decimals_rd (Nat.mod_lt _ (by norm_num)), ok_bind, wr_ok (by omega), ok_bind]
    simp only
    by_cases h0 : tmp / 10 = 0
    · rw [if_neg (by simpa using h0)]
      have hlt : tmp < 10 := by omega
      refine ⟨d, _, [48 + tmp], rfl, by omega, by omega, by simp, ?_, ?_, ?_⟩
      · rw [drop_set (by omega), Nat.mod_eq_of_lt hlt]; rfl
      · refine ⟨fun c hc => ?_, by simp, fun hh => ?_⟩
        · rw [List.mem_singleton] at hc; omega
        · have := Option.some.inj hh
          rw [this]
      · simp [decVal]
    · rw [if_pos h0]
      have hk : 1 ≤ k := by
        rcases Nat.eq_zero_or_pos k with e | e
        · subst e; omega
        · exact e
      obtain ⟨e, a', X, h1, h2, h3, h4, h5, ⟨q1, q2, q3⟩, h7⟩ :=
        ih d (tmp / 10) (a.setIfInBounds d (48 + tmp % 10)) hk (by omega) (by simp; omega)
          (by rw [pow_succ] at ht; omega)
      refine ⟨e, a', X ++ [48 + tmp % 10], h1, by omega, by omega, by simpa using h4, ?_, ⟨?_, by simp, ?_⟩, ?_⟩
      · rw [h5, drop_set (by omega)]; simp
      · intro c hc
        rw [List.mem_append, List.mem_singleton] at hc
        rcases hc with hc | hc
        · exact q1 c hc
        · omega
      · intro hh
        exfalso
        have : X.head? = some 48 := by
          cases X with
          | nil => exact absurd rfl q2
          | cons x X => simpa using hh
        have := q3 this
        rw [this] at h7
        simp [decVal] at h7
        omega
      · rw [decVal_snoc, h7]; omega

theorem fresh_size (mem : Nat → Nat) (n : Nat) : (fresh mem n).size = n := by simp [fresh]

theorem drop_fresh (mem : Nat → Nat) (n : Nat) : (fresh mem n).toList.drop n = [] :=
  List.drop_of_length_le (by simp [fresh])

theorem print_u128_spec (mem : Nat → Nat) {v : Nat} (hv : v < 2 ^ 128) :
    ∃ s, print_u128 mem v = .ok s ∧ Decimal s ∧ decVal s = v ∧ s.length ≤ 39 := by
  obtain ⟨e, a', X, h1, h2, h3, h4, h5, h6, h7⟩ :=
    digitLoop_spec 39 128 v (fresh mem 128) (by norm_num) (by norm_num) (by simp [fresh])
      (lt_trans hv (by norm_num))
  rw [drop_fresh, List.append_nil] at h5
  refine ⟨X, ?_, h6, h7, ?_⟩
  · unfold print_u128
    rw [h1, ok_bind]
    simp only [h5]; rfl
  · rw [← h5, List.length_drop, Array.length_toList, h4, fresh_size]; omega

theorem print_i128_spec (mem : Nat → Nat) {v : Int} (h1 : -2 ^ 127 < v) (h2 : v < 2 ^ 127) :
    ∃ s, print_i128 mem v = .ok ((if v < 0 then [45] else []) ++ s) ∧ Decimal s ∧ decVal s = v.natAbs := by
  have hA : (2 : Int) ^ 127 = 170141183460469231731687303715884105728 := by norm_num
  have hB : (2 : Int) ^ 128 = 340282366920938463463374607431768211456 := by norm_num
  have hC : v.natAbs < 10 ^ 39 := by
    have : (10 : Nat) ^ 39 = 1000000000000000000000000000000000000000 := by norm_num
    rw [hA] at h1 h2
    omega
  obtain ⟨e, a', X, g1, g2, g3, g4, g5, g6, g7⟩ :=
    digitLoop_spec 39 128 v.natAbs (fresh mem 128) (by norm_num) (by norm_num) (by simp [fresh]) hC
  rw [drop_fresh, List.append_nil] at g5
  rw [fresh_size] at g4
  refine ⟨X, ?_, g6, g7⟩
  unfold print_i128 negI128
  by_cases hn : v < 0
  · rw [if_pos hn, if_neg (by omega), ok_bind]
    have : (-v % 2 ^ 128).toNat = v.natAbs := by
      rw [Int.emod_eq_of_lt (by omega) (by omega)]; omega
    beta_reduce
    rw [this, g1, ok_bind]
    simp only [if_pos hn]
    rw [if_neg (by omega), wr_ok (by omega), ok_bind]
    have := drop_set (a := a') (d := e - 1) (x := 45) (by omega)
    rw [this, Nat.sub_add_cancel (by omega), g5]; rfl
  · rw [if_neg hn, ok_bind]
    have : (v % 2 ^ 128).toNat = v.natAbs := by
      rw [Int.emod_eq_of_lt (by omega) (by omega)]; omega
    beta_reduce
    rw [this, g1, ok_bind]
    simp only [if_neg hn, g5]; rfl

/-! ## Dumps -/

theorem digit_eq (u : Bool) {x : Nat} (h : x < 16) : digit u x = hexDigit u x := by
  have : ∀ u : Bool, ∀ x : Fin 16, digit u x = hexDigit u x := by decide +kernel
  exact this u ⟨x, h⟩

theorem digits_hex (u : Bool) {b : Nat} (h : b < 256) :
    digits u 16 31 b = if b < 16 then [hexDigit u b] else [hexDigit u (b / 16), hexDigit u (b % 16)] := by
  rw [digits]
  by_cases hb : b < 16
  · rw [if_pos hb, if_pos hb, digit_eq u hb]
  · rw [if_neg hb, if_neg hb, digits, if_pos (by omega), digit_eq u (by omega), digit_eq u (by omega)]
    rfl

/-- what a stream with these flags shows of a byte -/
def byteOut (f : Flags) (b : Nat) : List Nat :=
  ((OS.putUnsigned ⟨[], { f with base := .hex }, 48⟩ 2 b).put [32]).out

theorem putByte (os : OS) (b : Nat) :
    ((({ os with fill := 48, flags := { os.flags with base := .hex } } : OS).putUnsigned 2 b).put [32])
      = { out := os.out ++ byteOut os.flags b, fill := 48, flags := { os.flags with base := .hex } } := by
  unfold byteOut OS.putUnsigned OS.put
  simp

/-- a byte on a stream that puts fill characters in front and shows no base -/
theorem byteOut_eq (f : Flags) {b : Nat} (h : b < 256) (ha : f.adjust ≠ .left) (hs : f.showbase = false) :
    byteOut f b = hexByte f.uppercase b := by
  unfold byteOut OS.putUnsigned OS.put
  simp only [hs, Bool.false_and]
  rw [digits_hex _ h]
  have h0 : hexDigit f.uppercase 0 = 48 := by cases f.uppercase <;> decide +kernel
  rcases hadj : f.adjust with _ | _ | _
  · exact absurd hadj ha
  all_goals
    by_cases hb : b < 16
    · have e1 : b / 16 = 0 := by omega
      have e2 : b % 16 = b := by omega
      simp [hb, hexByte, e1, e2, h0]
    · simp [hb, hexByte]

theorem byteOut_congr {f g : Flags} (h : { f with base := .hex } = { g with base := .hex }) :
    byteOut f = byteOut g := by
  funext b
  unfold byteOut
  rw [h]

theorem rd_drop {a : Array Nat} {i c : Nat} {l : List Nat} (h : a.toList.drop i = c :: l) :
    rd a i = .ok c ∧ a.toList.drop (i + 1) = l := by
  have hi : i < a.size := by
    by_contra hc
    rw [List.drop_of_length_le (by simpa using hc)] at h
    cases h
  rw [List.drop_eq_getElem_cons (by simpa using hi)] at h
  injection h with h1 h2
  exact ⟨by rw [rd_ok hi, ← h1]; simp, h2⟩

theorem cstr_spec {a : Array Nat} : ∀ (t : List Nat) (i fuel : Nat) (r : List Nat),
    a.toList.drop i = t ++ 0 :: r → (∀ c ∈ t, c ≠ 0) → t.length < fuel → cstr a fuel i = .ok t := by
  intro t
  induction t with
  | nil =>
    intro i fuel r h _ hf
    obtain ⟨f, rfl⟩ : ∃ f, fuel = f + 1 := ⟨fuel - 1, by simp at hf; omega⟩
    rw [cstr, (rd_drop h).1, ok_bind, if_pos rfl]; rfl
  | cons c t ih =>
    intro i fuel r h hn hf
    obtain ⟨f, rfl⟩ : ∃ f, fuel = f + 1 := ⟨fuel - 1, by simp at hf; omega⟩
    rw [cstr, (rd_drop h).1, ok_bind, if_neg (hn c (by simp)),
      ih (i + 1) f r (rd_drop h).2 (fun x hx => hn x (by simp [hx])) (by simp at hf; omega), ok_bind]
    rfl

theorem take_set {a : Array Nat} {d x : Nat} (h : d < a.size) :
    (a.setIfInBounds d x).toList.take (d + 1) = a.toList.take d ++ [x] := by
  rw [Array.toList_setIfInBounds, List.take_succ_eq_append_getElem (by simpa using h)]
  simp [List.take_set, List.set_eq_of_length_le]

theorem shown_eq (b : Nat) : (if isprint b then b else 46) = shown b := by
  unfold isprint shown
  by_cases h : 32 ≤ b ∧ b < 127
  · rw [if_pos h, if_pos (by simp; omega)]
  · rw [if_neg h, if_neg (by simp; omega)]

theorem shown_ne (b : Nat) : shown b ≠ 0 := by
  unfold shown
  by_cases h : 32 ≤ b ∧ b < 127
  · rw [if_pos h]; omega
  · rw [if_neg h]; decide

theorem dump_nil (u : Nat → List Nat) (t : Bool) : dump u t [] = [] := by rw [dump]; simp

theorem dump_line (u : Nat → List Nat) (t : Bool) {l : List Nat} (r : List Nat) (hl : l.length = 32) :
    dump u t (l ++ r) = dumpLine u t l ++ dump u t r := by
  have hne : l ++ r ≠ [] := by
    intro h
    have := congrArg List.length h
    rw [List.length_append, List.length_nil] at this
    omega
  rw [dump, if_neg hne,
    List.take_left' hl, List.drop_left' hl]

theorem dump_last (u : Nat → List Nat) (t : Bool) {l : List Nat} (h : l ≠ []) (hl : l.length ≤ 32) :
    dump u t l = dumpLine u t l := by
  rw [dump, if_neg h, List.take_of_length_le hl, List.drop_of_length_le hl, dump_nil, List.append_nil]

/-- what holds between the bytes: `cur` is the part of the line shown, `n` bytes are left -/
structure Inv (f : Flags) (o cur : List Nat) (n : Nat) (s : DumpSt) : Prop where
  size : s.rs.size = 33
  ptr : s.rsptr = cur.length
  short : cur.length < 32
  text : s.rs.toList.take cur.length = cur.map shown
  out : s.os.out = o ++ (cur.map (byteOut f)).flatten
  flags : { s.os.flags with base := .hex } = { f with base := .hex }
  cnt : s.linecount ≤ 32
  full : 32 ≤ n + cur.length → s.linecount = 32 - cur.length
  part : n + cur.length < 32 → n < s.linecount

theorem push_ok {s : DumpSt} {c : Nat} (h : s.rsptr < s.rs.size) :
    s.push c = .ok { s with rs := s.rs.setIfInBounds s.rsptr c, rsptr := s.rsptr + 1 } := by
  unfold DumpSt.push
  rw [wr_ok h]; rfl

theorem push_mk {os : OS} {rs : Array Nat} {p l c : Nat} (h : p < rs.size) :
    DumpSt.push ⟨os, rs, p, l⟩ c = .ok ⟨os, rs.setIfInBounds p c, p + 1, l⟩ := push_ok h

theorem putRender_ok {s : DumpSt} {t : List Nat} (ht : s.rs.toList.take (t.length + 1) = t ++ [0])
    (hn : ∀ c ∈ t, c ≠ 0) (hl : t.length < s.rs.size) : s.putRender = .ok { s with os := s.os.put t } := by
  unfold DumpSt.putRender
  rw [cstr_spec t 0 (s.rs.size + 1) (s.rs.toList.drop (t.length + 1)) ?_ hn (by omega)]
  · rfl
  · rw [List.drop_zero]
    conv_lhs => rw [← List.take_append_drop (t.length + 1) s.rs.toList, ht]
    simp

theorem step_spec {f : Flags} {t : Bool} {o cur : List Nat}
    {n b : Nat} {s : DumpSt} (I : Inv f o cur (n + 1) s) :
    ∃ s' o' cur', dumpStep t b (n + 1) s = .ok s' ∧ Inv f o' cur' n s' ∧
      ∀ r, o' ++ dump (byteOut f) t (cur' ++ r) = o ++ dump (byteOut f) t (cur ++ b :: r) := by
  obtain ⟨i1, i2, i3, i4, i5, i6, i7, i8, i9⟩ := I
  have hlc : 1 ≤ s.linecount := by
    by_cases h : 32 ≤ n + 1 + cur.length
    · rw [i8 h]; omega
    · have := i9 (by omega); omega
  have hpr : s.rsptr < s.rs.size := by omega
  have hw : wrap 64 (s.linecount + (2 ^ 64 - 1)) = s.linecount - 1 := by unfold wrap; omega
  unfold dumpStep
  simp only
  rw [putByte, byteOut_congr i6, push_mk hpr, ok_bind]
  simp only [shown_eq]
  rw [hw]
  have htake : (s.rs.setIfInBounds s.rsptr (shown b)).toList.take (cur.length + 1) = (cur ++ [b]).map shown := by
    rw [i2, take_set (by omega), i4]; simp
  have hout : s.os.out ++ byteOut f b = o ++ ((cur ++ [b]).map (byteOut f)).flatten := by
    rw [i5]; simp
  by_cases h0 : s.linecount - 1 = 0
  · rw [if_pos h0]
    have hc : cur.length = 31 := by
      by_cases h : 32 ≤ n + 1 + cur.length
      · have := i8 h; omega
      · have := i9 (by omega); omega
    rw [push_ok (by simp; omega), ok_bind]
    have hl : (cur ++ [b]).length = 32 := by simp [hc]
    have hcap : ((s.rs.setIfInBounds s.rsptr (shown b)).setIfInBounds (s.rsptr + 1) 0).toList.take
        (((cur ++ [b]).map shown).length + 1) = (cur ++ [b]).map shown ++ [0] := by
      rw [← htake, List.length_take, i2]
      have : min (cur.length + 1) (s.rs.setIfInBounds cur.length (shown b)).toList.length = cur.length + 1 := by
        simp [i1]; omega
      rw [this, take_set (by simp; omega)]
    refine ⟨⟨⟨o ++ dumpLine (byteOut f) t (cur ++ [b]), { s.os.flags with base := .hex }, 48⟩,
      (s.rs.setIfInBounds s.rsptr (shown b)).setIfInBounds (s.rsptr + 1) 0, 0, min maxline (n + 1)⟩,
      o ++ dumpLine (byteOut f) t (cur ++ [b]), [], ?_, ⟨?_, rfl, by simp, by simp, by simp, by simpa using i6, ?_, ?_, ?_⟩, ?_⟩
    · cases t with
      | true =>
        rw [if_pos rfl]
        simp only
        rw [putRender_ok (t := (cur ++ [b]).map shown) (by simpa using hcap)
          (by intro c hc; rw [List.mem_map] at hc; obtain ⟨x, -, rfl⟩ := hc; exact shown_ne x)
          (by simp; omega), ok_bind]
        simp only [OS.put, hout, dumpLine, hl]
        simp
        rfl
      | false =>
        rw [if_neg (by simp)]
        simp only [OS.put, hout, dumpLine]
        simp
        rfl
    · simp [i1]
    · exact min_le_left _ _
    · intro h; simp only [List.length_nil] at h ⊢; unfold maxline; omega
    · intro h; simp only [List.length_nil] at h; simp only; unfold maxline; omega
    · intro r
      have : cur ++ b :: r = (cur ++ [b]) ++ r := by simp
      rw [this, dump_line _ _ _ hl]; simp
  · rw [if_neg h0]
    have hc : cur.length < 31 := by
      by_cases h : 32 ≤ n + 1 + cur.length
      · have := i8 h; omega
      · omega
    refine ⟨_, o, cur ++ [b], rfl, ⟨by simp [i1], by simp [i2], by simp; omega, by simpa using htake, hout,
      by simpa using i6, by simp only; omega, ?_, ?_⟩, ?_⟩
    · intro h
      simp only [List.length_append, List.length_singleton] at h ⊢
      have := i8 (by omega); omega
    · intro h
      simp only [List.length_append, List.length_singleton] at h ⊢
      have := i9 (by omega); omega
    · intro r; simp

theorem loop_spec {f : Flags} {t : Bool} {a : Array Nat} :
    ∀ (n pos : Nat) (s : DumpSt) (o cur : List Nat), pos + n ≤ a.size →
      Inv f o cur n s →
      ∃ s' o' cur', dumpLoop t a n pos s = .ok s' ∧ Inv f o' cur' 0 s' ∧
        o' ++ dump (byteOut f) t cur' = o ++ dump (byteOut f) t (cur ++ (a.toList.drop pos).take n) := by
  intro n
  induction n with
  | zero => intro pos s o cur _ I; exact ⟨s, o, cur, rfl, I, by simp⟩
  | succ n ih =>
    intro pos s o cur hp I
    have hlt : pos < a.size := by omega
    obtain ⟨s1, o1, c1, e1, I1, q1⟩ := step_spec (t := t) (b := gt a pos) I
    obtain ⟨s2, o2, c2, e2, I2, q2⟩ := ih (pos + 1) s1 o1 c1 (by omega) I1
    refine ⟨s2, o2, c2, ?_, I2, ?_⟩
    · rw [dumpLoop, rd_gt hlt, ok_bind, e1, ok_bind, e2]
    · have : (a.toList.drop pos).take (n + 1) = gt a pos :: (a.toList.drop (pos + 1)).take n := by
        rw [List.drop_eq_getElem_cons (by simpa using hlt), List.take_succ_cons, gt_eq hlt]
        simp
      rw [q2, q1, this]

theorem padLoop_spec : ∀ (k fuel : Nat) (s : DumpSt), s.rsptr + k = 33 → k < fuel →
    padLoop fuel s = .ok { s with os := s.os.put (List.replicate (3 * k) 32), rsptr := 33 } := by
  intro k
  induction k with
  | zero =>
    intro fuel s h hf
    obtain ⟨fu, rfl⟩ : ∃ f, fuel = f + 1 := ⟨fuel - 1, by omega⟩
    have hp : s.rsptr = 33 := by omega
    rw [padLoop, if_pos (by rw [hp]; rfl)]
    simp [OS.put, ← hp]
  | succ k ih =>
    intro fuel s h hf
    obtain ⟨fu, rfl⟩ : ∃ f, fuel = f + 1 := ⟨fuel - 1, by omega⟩
    rw [padLoop, if_neg (by unfold maxline; omega), if_neg (by unfold maxline; omega),
      ih fu _ (by simp only; omega) (by omega)]
    have : 3 * (k + 1) = 3 + 3 * k := by ring
    simp [OS.put, this, List.replicate_add]

theorem hex_dump_spec (mem : Nat → Nat) (os : OS) {a : Array Nat} {n : Nat} (hn : n ≤ a.size) (t : Bool) :
    hex_dump mem os (some a) n t
      = .ok { os with out := os.out ++ dump (byteOut os.flags) t (a.toList.take n) } := by
  obtain ⟨s, o, cur, e, ⟨i1, i2, i3, i4, i5, i6, i7, i8, i9⟩, q⟩ := loop_spec (f := os.flags) (t := t) (a := a) n 0
    ⟨os, fresh mem (maxline + 1), 0, maxline⟩ os.out [] (by omega)
    ⟨fresh_size _ _, rfl, by simp, by simp, by simp, rfl, le_refl _, fun _ => rfl, fun h => by
      simp only [List.length_nil] at h; simp only; unfold maxline; omega⟩
  rw [List.nil_append, List.drop_zero] at q
  unfold hex_dump
  simp only
  rw [e, ok_bind]
  by_cases hc : cur = []
  · subst hc
    rw [dump_nil, List.append_nil] at q
    have hp : s.rsptr = 0 := by simpa using i2
    rw [if_neg (by simp [hp])]
    show Except.ok _ = _
    rw [← q]
    simp at i5
    simp [i5]
  · have hl : 0 < cur.length := List.length_pos_of_ne_nil hc
    rw [if_pos (by omega)]
    rw [dump_last _ _ hc (by omega)] at q
    rw [← q]
    cases t with
    | true =>
      simp only [if_true]
      rw [push_ok (by omega), ok_bind, padLoop_spec (32 - cur.length) _ _ (by simp only; omega) (by unfold maxline; omega),
        ok_bind]
      simp only
      rw [putRender_ok (t := cur.map shown) ?_
        (by intro c hc; rw [List.mem_map] at hc; obtain ⟨x, -, rfl⟩ := hc; exact shown_ne x)
        (by simp; omega), ok_bind]
      · show Except.ok _ = _
        simp [OS.put, i5, dumpLine]
      · simp only [List.length_map]
        rw [i2, take_set (by omega), i4]
    | false =>
      show Except.ok _ = _
      simp [OS.put, i5, dumpLine]

theorem dump_congr {u v : Nat → List Nat} {t : Bool} {l : List Nat} (h : ∀ b ∈ l, u b = v b) :
    dump u t l = dump v t l := by
  induction hn : l.length using Nat.strong_induction_on generalizing l with
  | _ n ih =>
    by_cases hl : l = []
    · subst hl; rw [dump_nil, dump_nil]
    · have : 0 < l.length := List.length_pos_of_ne_nil hl
      rw [dump, if_neg hl, dump.eq_1 v, if_neg hl,
        ih (l.drop 32).length (by rw [List.length_drop]; omega) (fun b hb => h b (List.mem_of_mem_drop hb)) rfl]
      congr 1
      unfold dumpLine
      rw [List.map_congr_left (fun b hb => h b (List.mem_of_mem_take hb))]

theorem hexDigit_fin : ∀ u : Bool, ∀ x : Fin 16, ∀ y : Fin 16,
    hexDigit u x ≠ 32 ∧ hexDigit u x ≠ 10 ∧ (hexDigit u x = hexDigit u y → x = y) := by decide +kernel

theorem hexByte_inj {u : Bool} {b c : Nat} (hb : b < 256) (hc : c < 256) (h : hexByte u b = hexByte u c) : b = c := by
  unfold hexByte at h
  simp only [List.cons.injEq, and_true] at h
  have e1 := (hexDigit_fin u ⟨b / 16, by omega⟩ ⟨c / 16, by omega⟩).2.2 h.1
  have e2 := (hexDigit_fin u ⟨b % 16, by omega⟩ ⟨c % 16, by omega⟩).2.2 h.2
  simp only [Fin.mk.injEq] at e1 e2
  omega

/-- the bytes of a line can be told from what follows -/
theorem bytes_inj {u : Bool} : ∀ {l l' : List Nat} {x x' : Nat} {r r' : List Nat}, (∀ b ∈ l, b < 256) →
    (∀ b ∈ l', b < 256) → (x = 32 ∨ x = 10) → (x' = 32 ∨ x' = 10) →
    (l.map (hexByte u)).flatten ++ x :: r = (l'.map (hexByte u)).flatten ++ x' :: r' → l = l' := by
  intro l
  induction l with
  | nil =>
    intro l' x x' r r' _ h2 hx _ h
    cases l' with
    | nil => rfl
    | cons c l' =>
      exfalso
      have hc := h2 c (by simp)
      have := hexDigit_fin u ⟨c / 16, by omega⟩ 0
      simp only [List.map_nil, List.flatten_nil, List.nil_append, List.map_cons, List.flatten_cons, hexByte,
        List.cons_append, List.cons.injEq] at h
      rcases hx with e | e
      · exact this.1 (by rw [← e]; exact h.1.symm)
      · exact this.2.1 (by rw [← e]; exact h.1.symm)
  | cons b l ih =>
    intro l' x x' r r' h1 h2 hx hx' h
    have hb := h1 b (by simp)
    cases l' with
    | nil =>
      exfalso
      have := hexDigit_fin u ⟨b / 16, by omega⟩ 0
      simp only [List.map_nil, List.flatten_nil, List.nil_append, List.map_cons, List.flatten_cons, hexByte,
        List.cons_append, List.cons.injEq] at h
      rcases hx' with e | e
      · exact this.1 (by rw [← e]; exact h.1)
      · exact this.2.1 (by rw [← e]; exact h.1)
    | cons c l' =>
      simp only [List.map_cons, List.flatten_cons, List.append_assoc] at h
      have hl := List.append_inj h rfl
      rw [hexByte_inj hb (h2 c (by simp)) hl.1,
        ih (fun b hb => h1 b (by simp [hb])) (fun b hb => h2 b (by simp [hb])) hx hx' hl.2]

/-- the first line of a dump can be told from what follows -/
theorem line_inj {u t : Bool} {l l' r r' : List Nat} (h1 : ∀ b ∈ l, b < 256) (h2 : ∀ b ∈ l', b < 256)
    (h : dumpLine (hexByte u) t l ++ r = dumpLine (hexByte u) t l' ++ r') : l = l' ∧ r = r' := by
  have key : l = l' := by
    have aux : ∀ (l r : List Nat), ∃ x q, (x = 32 ∨ x = 10) ∧ dumpLine (hexByte u) t l ++ r
        = (l.map (hexByte u)).flatten ++ x :: q := by
      intro l r
      unfold dumpLine
      cases t with
      | false => exact ⟨10, r, Or.inr rfl, by simp⟩
      | true =>
        cases hk : 3 * (32 - l.length) with
        | zero => exact ⟨32, _, Or.inl rfl, by simp; rfl⟩
        | succ k => exact ⟨32, _, Or.inl rfl, by simp [List.replicate_succ]; rfl⟩
    obtain ⟨x, q, hx, e⟩ := aux l r
    obtain ⟨x', q', hx', e'⟩ := aux l' r'
    rw [e, e'] at h
    exact bytes_inj h1 h2 hx hx' h
  subst key
  exact ⟨rfl, List.append_cancel_left h⟩

theorem dump_inj {u t : Bool} : ∀ (n : Nat) {l l' : List Nat}, l.length = n → (∀ b ∈ l, b < 256) →
    (∀ b ∈ l', b < 256) → dump (hexByte u) t l = dump (hexByte u) t l' → l = l' := by
  intro n
  induction n using Nat.strong_induction_on with
  | _ n ih =>
    intro l l' hn h1 h2 h
    have hne : ∀ m : List Nat, m ≠ [] → dump (hexByte u) t m ≠ [] := by
      intro m hm
      rw [dump, if_neg hm]
      unfold dumpLine
      simp
    by_cases hl : l = []
    · subst hl
      by_contra hc
      exact hne l' (fun e => hc e.symm) (by rw [← h, dump_nil])
    · by_cases hl' : l' = []
      · subst hl'
        exact absurd (by rw [h, dump_nil]) (hne l hl)
      · have : 0 < l.length := List.length_pos_of_ne_nil hl
        rw [dump, if_neg hl, dump.eq_1 (hexByte u) t l', if_neg hl'] at h
        obtain ⟨e1, e2⟩ := line_inj (fun b hb => h1 b (List.mem_of_mem_take hb))
          (fun b hb => h2 b (List.mem_of_mem_take hb)) h
        have e3 := ih (l.drop 32).length (by rw [List.length_drop]; omega) rfl
          (fun b hb => h1 b (List.mem_of_mem_drop hb)) (fun b hb => h2 b (List.mem_of_mem_drop hb)) e2
        rw [← List.take_append_drop 32 l, e1, e3, List.take_append_drop]

end Quad.Misc
