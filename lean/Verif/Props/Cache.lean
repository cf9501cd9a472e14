import Verif.Lemmas.Cache

/-!
# C68: the table of roots cached in a file, for all schedules of the calling processes and all points where they are killed

`Cache.Reach T s`: any number of processes have called `compute_omegas_cached` for the same root and length in a
directory without the file, and some schedule has led to the state `s`.  A killed process is one that takes no more
steps, so every crash point of every process is included.

Holds: a call that returns, returns the table but for the last entry (`C68_any_schedule_partial`); once all processes
that write have finished, however they were interleaved, the file is complete and all later calls return the table
(`C68_settled`).  Fails: when a process is killed or not ready yet, later calls fail an assertion, for ever, or return
a table with a wrong last entry (`C68_crash_points`).
-/

namespace Quad

open Spec Cache RingModN Properties

variable {O : RingModN.Obj} {p : Nat}

theorem cache_row (H : IsPrimeField O p) {w : Nat} (hw : w < p) (i : Nat) : O.ring.exp w i = w ^ i % p := by
  have hc := H.card
  rw [exp_eq H.fits (by omega), hc]

theorem cache_vals (H : IsPrimeField O p) {w : Nat} (hw : w < p) (n : Nat) :
    ∀ v ∈ (List.range n).map (fun i => O.ring.exp w i), v < 2 ^ O.ring.b := by
  intro v hv
  obtain ⟨i, _, rfl⟩ := List.mem_map.1 hv
  rw [cache_row H hw]
  have h1 := Nat.mod_lt (w ^ i) H.prime.pos
  have h2 := H.fits.spare
  have := H.card
  omega

/-- what a call makes of the first `k` bytes of the text, followed by the end of the file or a zero byte -/
theorem readTable_cut (H : IsPrimeField O p) {w n k : Nat} (hw : w < p) {W : Array Nat} (hW : n + 1 ≤ W.size) {rest : List Char} (hr : Stop rest) :
    (k ≤ (tableText O n w).length → readTable O ((tableText O (n + 1) w).take k ++ rest) W (n + 1) = .error .assertFail) ∧
    ((tableText O n w).length < k → ∃ W', readTable O ((tableText O (n + 1) w).take k ++ rest) W (n + 1) = .ok W' ∧
      (∀ i, i < n → gt W' i = w ^ i % p) ∧
      gt W' n = w ^ n % p / 10 ^ ((decStr (w ^ n % p)).length - (k - (tableText O n w).length))) := by
  have e : (List.range (n + 1)).map (fun i => O.ring.exp w i) = (List.range n).map (fun i => O.ring.exp w i) ++ [w ^ n % p] := by
    rw [List.range_succ, List.map_append, List.map_singleton, cache_row H hw]
  have hv := values_cut (k := k) hr (cache_vals H hw (n + 1))
  have c := cut_snoc ((List.range n).map (fun i => O.ring.exp w i)) (w ^ n % p) k
  unfold readTable tableText
  rw [hv, e]
  constructor
  · intro h
    have := c.1 h
    rw [List.length_map, List.length_range] at this
    exact readCache_short (n + 1) _ 0 W (by omega) hW
  · intro h
    rw [c.2 h]
    obtain ⟨W', e', _, h2⟩ := Props.readCache_spec (n + 1) ((List.range n).map (fun i => O.ring.exp w i) ++
      [w ^ n % p / 10 ^ ((decStr (w ^ n % p)).length - (k - (text ((List.range n).map (fun i => O.ring.exp w i))).length))]) 0 W (by simp) hW
    refine ⟨W', e', fun i hi => ?_, ?_⟩
    · rw [h2, if_pos ⟨by omega, by omega⟩, Nat.sub_zero, List.getD_eq_getElem?_getD, List.getElem?_append_left (by simpa using hi), List.getElem?_map, List.getElem?_range hi]
      exact cache_row H hw i
    · rw [h2, if_pos ⟨by omega, by omega⟩, Nat.sub_zero, List.getD_eq_getElem?_getD, List.getElem?_append_right (by simp)]
      simp

theorem readTable_full (H : IsPrimeField O p) {w n : Nat} (hw : w < p) {W : Array Nat} (hW : n ≤ W.size) :
    ∃ W', readTable O (tableText O n w) W n = .ok W' ∧ IsTable p n w W' := by
  have hv := values_cut (k := (tableText O n w).length) (rest := []) (by simp [Stop]) (cache_vals H hw n)
  have e : (text ((List.range n).map (fun i => O.ring.exp w i))).take (tableText O n w).length ++ [] = tableText O n w := by
    rw [List.append_nil]; exact List.take_length
  have c : cut ((List.range n).map (fun i => O.ring.exp w i)) (tableText O n w).length = _ := cut_full (le_refl (tableText O n w).length)
  rw [e, c] at hv
  unfold readTable
  rw [hv]
  obtain ⟨W', e', _, h2⟩ := Props.readCache_spec n ((List.range n).map (fun i => O.ring.exp w i)) 0 W (by simp) hW
  refine ⟨W', e', fun i hi => ?_⟩
  rw [h2, if_pos ⟨by omega, hi⟩, Nat.sub_zero, List.getD_eq_getElem?_getD, List.getElem?_map, List.getElem?_range hi]
  exact cache_row H hw i

/-- files of different roots have different names -/
theorem C68_filename {w w' : Nat} (h : filename w = filename w') : w = w' := by
  unfold filename at h
  have := congrArg decVal (List.append_cancel_left (List.append_cancel_right h))
  rwa [decVal_decStr, decVal_decStr] at this

/-- whatever the schedule and whichever processes were killed, a call that has returned failed the assertion or has all
entries right but the last, which may lack its last digits.  Missing: that it returns, with the last entry right (false, see
`C68_crash_points`). -/
theorem C68_any_schedule_partial (H : IsPrimeField O p) {w n : Nat} (hw : w < p) {W : Array Nat} (hW : n ≤ W.size) {s : St}
    (hs : Reach (tableText O n w) s) {i : Nat} {r : Res (Array Nat)} (hr : result O W n w (s.pc i) = some r) :
    r = .error .assertFail ∨ ∃ W', r = .ok W' ∧ IsTableCut p n w W' := by
  unfold result at hr
  split at hr
  · cases hr
    obtain ⟨W', e, _, h⟩ := Props.C45_compute_omegas H hw hW
    refine Or.inr ⟨W', e, fun i hi => by rw [h, if_pos (by omega)], fun hn => ⟨0, ?_⟩⟩
    rw [h, if_pos (by omega)]
    simp
  · rename_i got e
    cases hr
    obtain ⟨k, rest, e', hst⟩ := (hs.inv.got i got (Or.inr e)).split
    subst e'
    cases n with
    | zero =>
      have hv := values_cut (k := k) hst (cache_vals H hw 0)
      have e : readTable O ((tableText O 0 w).take k ++ rest) W 0 = .ok W := by
        unfold readTable tableText
        rw [hv]
        rfl
      exact Or.inr ⟨W, e, fun i hi => by omega, fun h => by omega⟩
    | succ n =>
      obtain ⟨h1, h2⟩ := readTable_cut H hw hW (k := k) hst
      rcases Nat.lt_or_ge (tableText O n w).length k with hk | hk
      · obtain ⟨W', e1, e2, e3⟩ := h2 hk
        exact Or.inr ⟨W', e1, fun i hi => e2 i (by omega), fun _ => ⟨_, e3⟩⟩
      · exact Or.inl (h1 hk)
  · cases hr

/-- when the file exists and no process is about to open it or writing it, all later calls return the table, whatever
the schedule was before and is afterwards -/
theorem C68_settled (H : IsPrimeField O p) {w n : Nat} (hw : w < p) {W : Array Nat} (hW : n ≤ W.size) {s s' : St}
    (hs : Reach (tableText O n w) s) (hf : s.file ≠ none) (hq : ∀ i, s.pc i ≠ .opening ∧ ∀ off, s.pc i ≠ .writing off)
    (st : Steps (tableText O n w) (fun _ => True) s s') :
    s'.file = some (tableText O n w) ∧
    ∀ i, s.pc i = .start → ∀ r, result O W n w (s'.pc i) = some r → ∃ W', r = .ok W' ∧ IsTable p n w W' := by
  obtain ⟨f, hf'⟩ := Option.ne_none_iff_exists'.1 hf
  obtain ⟨_, hl, L, off, hL, e⟩ := hs.inv.holey f hf'
  have : off = (tableText O n w).length := by
    rcases hL with hL | hL
    · exact absurd hL ((hq L).2 off)
    · exact hL.2
  subst this
  have ef : f = tableText O n w := by
    apply List.ext_getElem?
    intro j
    rcases Nat.lt_or_ge j (tableText O n w).length with hj | hj
    · exact e j hj
    · rw [List.getElem?_eq_none hj, List.getElem?_eq_none (by omega)]
  subst ef
  obtain ⟨i1, _, i3⟩ := steps_read hf' (fun i _ => hq i) st
  refine ⟨i1, fun i hi r hr => ?_⟩
  rcases i3 i hi with q | ⟨k, q⟩ | q
  · rw [q] at hr; cases hr
  · rw [q] at hr; cases hr
  · rw [q] at hr
    cases hr
    exact readTable_full H hw hW

/-- process 0 has written `k` bytes of the text `T` and is killed -/
def killedAt (T : List Char) (k : Nat) : St := ⟨some (T.take k), fun j => if j = 0 then .writing k else .start⟩

theorem reach_killedAt {T : List Char} {k : Nat} (hk : k ≤ T.length) : Reach T (killedAt T k) := by
  have h1 : Reach T _ := .step .init (.absent _ 0 rfl rfl)
  have h2 : Reach T _ := .step h1 (.create _ 0 rfl)
  have e : ∀ c, (St.at (St.at ⟨none, fun _ => .start⟩ 0 none .opening) 0 (some []) (.writing 0)).at 0 (some c) (.writing k) =
      ⟨some c, fun j => if j = 0 then .writing k else .start⟩ := by
    intro c
    unfold St.at
    congr 1
    funext j
    dsimp only
    split <;> rfl
  rcases Nat.eq_zero_or_pos k with rfl | hp
  · have : killedAt T 0 = St.at (St.at ⟨none, fun _ => .start⟩ 0 none .opening) 0 (some []) (.writing 0) := by
      unfold killedAt St.at
      congr 1
      funext j
      dsimp only
      split <;> rfl
    rw [this]; exact h2
  · have h3 : Reach T _ := .step h2 (.write _ 0 0 k [] rfl rfl hp (by omega))
    have q : pwrite [] 0 ((T.drop 0).take k) = T.take k := by simp [pwrite]
    rw [q, Nat.zero_add, e] at h3
    exact h3

/-- one process is killed (or just interrupted) after `k` bytes, and others call afterwards.  If `k` ends before the
last number, all their calls fail the assertion, and the file is not repaired.  If at least one digit of the last
number is there, they return a table, and it is right if and only if at most the last byte is missing. -/
theorem C68_crash_points (H : IsPrimeField O p) {w n k : Nat} (h0 : 0 < w) (hw : w < p) {W : Array Nat} (hW : n + 1 ≤ W.size)
    (hk : k ≤ (tableText O (n + 1) w).length) :
    Reach (tableText O (n + 1) w) (killedAt (tableText O (n + 1) w) k) ∧
    ∀ s', Steps (tableText O (n + 1) w) (fun i => i ≠ 0) (killedAt (tableText O (n + 1) w) k) s' →
      s'.file = some ((tableText O (n + 1) w).take k) ∧
      ∀ i r, i ≠ 0 → result O W (n + 1) w (s'.pc i) = some r →
        (k ≤ (tableText O n w).length → r = .error .assertFail) ∧
        ((tableText O n w).length < k → ∃ W', r = .ok W' ∧ IsTableCut p (n + 1) w W' ∧
          (IsTable p (n + 1) w W' ↔ (tableText O (n + 1) w).length ≤ k + 1)) := by
  refine ⟨reach_killedAt hk, fun s' st => ?_⟩
  obtain ⟨i1, _, i3⟩ := steps_read (f := (tableText O (n + 1) w).take k) rfl (P := fun i => i ≠ 0) (fun i hi => by
    show (if i = 0 then _ else _) ≠ _ ∧ ∀ off, (if i = 0 then _ else _) ≠ _
    rw [if_neg hi]
    exact ⟨(fun q => nomatch q), (fun _ q => nomatch q)⟩) st
  refine ⟨i1, fun i r hi hr => ?_⟩
  have hr' : r = readTable O ((tableText O (n + 1) w).take k ++ []) W (n + 1) := by
    rcases i3 i (if_neg hi) with q | ⟨k, q⟩ | q
    · rw [q] at hr; cases hr
    · rw [q] at hr; cases hr
    · rw [q] at hr
      cases hr
      rw [List.append_nil]
  obtain ⟨h1, h2⟩ := readTable_cut H hw hW (k := k) (rest := []) (by simp [Stop])
  refine ⟨fun h => hr'.trans (h1 h), fun h => ?_⟩
  obtain ⟨W', e1, e2, e3⟩ := h2 h
  refine ⟨W', hr'.trans e1, ⟨fun i hi => e2 i (by omega), fun _ => ⟨_, e3⟩⟩, ?_⟩
  have len : (tableText O (n + 1) w).length = (tableText O n w).length + (decStr (w ^ n % p)).length + 1 := by
    unfold tableText
    rw [List.range_succ, List.map_append, List.map_singleton, cache_row H hw]
    unfold text
    rw [List.flatMap_append, List.length_append]
    simp
    omega
  have pos : 0 < w ^ n % p := by
    rcases Nat.eq_zero_or_pos (w ^ n % p) with z | z
    · have := H.prime.dvd_of_dvd_pow (Nat.dvd_of_mod_eq_zero z)
      have := Nat.le_of_dvd h0 this
      omega
    · exact z
  constructor
  · intro ht
    have := ht n (by omega)
    rw [e3] at this
    by_contra hc
    have : w ^ n % p / 10 ^ ((decStr (w ^ n % p)).length - (k - (tableText O n w).length)) < w ^ n % p :=
      Nat.div_lt_self pos (Nat.one_lt_pow (by omega) (by decide))
    omega
  · intro hc i hi
    rcases Nat.lt_or_ge i n with q | q
    · exact e2 i q
    · rw [show i = n by omega, e3, show (decStr (w ^ n % p)).length - (k - (tableText O n w).length) = 0 by omega]
      simp

/-! ## Concrete cases -/

/-- a settled state: one process has written the file and closed it; another one then reads it -/
example (T : List Char) : ∃ s s', Reach T s ∧ s.file ≠ none ∧ (∀ i, s.pc i ≠ .opening ∧ ∀ off, s.pc i ≠ .writing off) ∧
    s.pc 1 = .start ∧ Steps T (fun _ => True) s s' ∧ s'.pc 1 = .readDone T := by
  have h : Reach T _ := .step (reach_killedAt (le_refl T.length)) (.close _ 0 rfl)
  refine ⟨_, _, h, fun q => (nomatch q), fun i => ?_, rfl, .step (.step (.step .refl trivial (.present _ 1 T rfl ?_)) trivial
    (.read _ 1 T.length [] T rfl rfl)) trivial (.eof _ 1 T T ?_ rfl (le_refl _)), rfl⟩
  · rw [at_pc]
    split
    · exact ⟨(fun q => nomatch q), (fun _ q => nomatch q)⟩
    · rename_i hi
      unfold killedAt
      simp only [if_neg hi]
      exact ⟨(fun q => nomatch q), (fun _ q => nomatch q)⟩
  · show some (T.take T.length) = some T
    rw [List.take_length]
  · show Pc.reading ([] ++ (T.drop 0).take T.length) = Pc.reading T
    simp

/-- two processes find no file; the second truncates what the first has written, which leaves zero bytes for a while:
`"1\n16"` is written, the file is truncated, `"\n2"` is written at position 4 -/
example : pwrite [] 4 "\n2".toList = [Char.ofNat 0, Char.ofNat 0, Char.ofNat 0, Char.ofNat 0, '\n', '2'] := by decide

example : tableText Props.O257 4 16 = "1\n16\n256\n241\n".toList := by decide +kernel

/-- killed after 10 of 13 bytes: the next process gets 2 for 16^3 = 241 -/
example : readTable Props.O257 ("1\n16\n256\n2".toList) (Array.replicate 4 0) 4 = .ok #[1, 16, 256, 2] := by decide +kernel

/-- killed after 9 bytes -/
example : readTable Props.O257 ("1\n16\n256\n".toList) (Array.replicate 4 0) 4 = .error .assertFail := by decide +kernel

end Quad
