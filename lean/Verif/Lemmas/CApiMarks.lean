import Verif.Lemmas.CApi

/-!
# Data whose first output fragment has any number of marked symbols
-/

namespace Quad.CApi
open Quad.Spec Quad.Props Finset Polynomial

theorem marksOf_length_lt {f : Nat → Option Nat} {J : Nat} (h1 : ∀ t, t < J → (f t).isSome) (h2 : ∀ t, J ≤ t → f t = none) :
    ∀ T, (marksOf f T).length = min T J := by
  intro T
  induction T with
  | zero => simp [marksOf_zero]
  | succ T ih =>
    rw [marksOf_succ, List.length_append, ih]
    by_cases h : T < J
    · obtain ⟨m, hm⟩ := Option.isSome_iff_exists.mp (h1 T h)
      rw [hm]; simp; omega
    · rw [h2 T (by omega)]; simp; omega

theorem marksOf_length_le (f : Nat → Option Nat) (T : Nat) : (marksOf f T).length ≤ T := by
  induction T with
  | zero => simp [marksOf_zero]
  | succ T ih =>
    rw [marksOf_succ, List.length_append]
    cases f T <;> simp <;> omega

variable {c : FntCode} {p n : Nat} [Fact p.Prime] {g : ZMod p}

/-- words of one row such that the symbol of output fragment 0 does not fit in a word -/
theorem exists_marked_row (hc : c.Ok) (r : c.Root p n g) (hk : 2 ≤ c.k) :
    ∃ a : Array Nat, a.size = c.k ∧ (∀ i, gt a i < 2 ^ (8 * c.w)) ∧ symbol g c.sys c.k a 0 = 2 ^ (8 * c.w) := by
  have hp := r.ne
  have hneg : ((-1 : ZMod p)).val = 2 ^ (8 * c.w) := by
    have : ((2 ^ (8 * c.w) : Nat) : ZMod p) = -1 := by
      have h0 : ((2 ^ (8 * c.w) + 1 : Nat) : ZMod p) = 0 := by
        have := ZMod.natCast_self p
        rwa [show ((p : Nat) : ZMod p) = ((2 ^ (8 * c.w) + 1 : Nat) : ZMod p) from congrArg _ hp] at this
      rw [Nat.cast_add, Nat.cast_one] at h0
      exact eq_neg_of_add_eq_zero_left h0
    rw [← this, ZMod.val_natCast, Nat.mod_eq_of_lt (by omega)]
  have hbig : 4 ≤ 2 ^ (8 * c.w) := by
    rcases hc.hw with h | h <;> rw [h] <;> norm_num
  haveI : NeZero p := ⟨by omega⟩
  cases hs : c.sys with
  | true =>
    have hne : ∀ i, i < c.k → g ^ i ≠ g ^ c.k := fun i hi h => by
      have := r.root.pow_inj (by have := r.len; have := hc.hm; omega) (by have := r.len; have := hc.hm; omega) h
      omega
    have hinj : Set.InjOn (fun i => g ^ i) (range c.k : Finset Nat) := fun i hi j hj h => by
      have hi' := mem_range.mp (mem_coe.mp hi)
      have hj' := mem_range.mp (mem_coe.mp hj)
      exact r.root.pow_inj (by have := r.len; omega) (by have := r.len; omega) h
    let P : (ZMod p)[X] := X + C (-1 - g ^ c.k)
    refine ⟨Array.ofFn (fun i : Fin c.k => (P.eval (g ^ i.1)).val), by simp, fun i => ?_, ?_⟩
    · by_cases hi : i < c.k
      · rw [gt_ofFn hi]
        have h1 := ZMod.val_lt (P.eval (g ^ i))
        have h2 : (P.eval (g ^ i)).val ≠ 2 ^ (8 * c.w) := fun h => by
          rw [← hneg] at h
          have := ZMod.val_injective p h
          simp only [P, eval_add, eval_X, eval_C] at this
          apply hne i hi
          linear_combination this
        simp only
        omega
      · rw [gt_oob (by simpa using hi)]; omega
    · have hP : P = Lagrange.interpolate (range c.k) (fun i => g ^ i)
          (fun i => ((gt (Array.ofFn (fun i : Fin c.k => (P.eval (g ^ i.1)).val)) i : Nat) : ZMod p)) := by
        refine Lagrange.eq_interpolate_of_eval_eq _ hinj ?_ (fun i hi => ?_)
        · refine lt_of_le_of_lt (degree_X_add_C _).le ?_
          rw [card_range]
          exact_mod_cast hk
        · rw [gt_ofFn (mem_range.mp hi), ZMod.natCast_val, ZMod.cast_id', id]
      unfold symbol rowPoly
      rw [if_pos rfl, if_pos rfl, Nat.add_zero, ← hP, ← hneg]
      congr 1
      simp only [P, eval_add, eval_X, eval_C]
      ring
  | false =>
    refine ⟨Array.ofFn (fun i : Fin c.k => if i.1 = 0 then 1 else if i.1 = 1 then p - 2 else 0), by simp, fun i => ?_, ?_⟩
    · by_cases hi : i < c.k
      · rw [gt_ofFn hi]
        simp only
        split
        · omega
        · split
          · omega
          · omega
      · rw [gt_oob (by simpa using hi)]; omega
    · unfold symbol rowPoly
      simp only [Bool.false_eq_true, if_false, pow_zero, eval_finset_sum, eval_mul, eval_C, eval_pow, eval_X, one_pow, mul_one]
      rw [← hneg]
      congr 1
      rw [Array.size_ofFn]
      have : ∀ i ∈ range c.k, ((gt (Array.ofFn (fun i : Fin c.k => if i.1 = 0 then 1 else if i.1 = 1 then p - 2 else 0)) i : Nat) : ZMod p)
          = if i = 0 then 1 else if i = 1 then ((p - 2 : Nat) : ZMod p) else 0 := fun i hi => by
        rw [gt_ofFn (mem_range.mp hi)]
        split
        · simp
        · split <;> simp
      rw [sum_congr rfl this]
      obtain ⟨k, hk'⟩ := Nat.exists_eq_add_of_le hk
      rw [hk', Nat.add_comm, sum_range_succ', sum_range_succ', sum_eq_zero (fun i _ => by simp)]
      have h2 : ((p - 2 : Nat) : ZMod p) = -2 := by
        rw [Nat.cast_sub (by omega), ZMod.natCast_self]; simp
      simp [h2]
      norm_num

/-- a row of zeros -/
theorem zero_row (hc : c.Ok) {a : Array Nat} (hz : ∀ i, gt a i = 0) (f : Nat) : symbol g c.sys c.k a f = 0 := by
  have : rowPoly g c.sys c.k a = 0 := by
    unfold rowPoly
    split
    · have : (fun i => ((gt a i : Nat) : ZMod p)) = 0 := by funext i; rw [hz]; simp
      rw [this, map_zero]
    · exact sum_eq_zero (fun i _ => by rw [hz]; simp)
  unfold symbol
  rw [this, eval_zero, ZMod.val_zero]

/-- data whose output fragment 0 has `J` marked symbols -/
theorem exists_marked (hc : c.Ok) (hk : 2 ≤ c.k) {T J : Nat} (hJ : J ≤ T) :
    ∃ data, c.Data data T ∧ ∀ frags fprops, c.Encoded data frags fprops → (gt fprops 0).props.length = J := by
  obtain ⟨p, n, _, g, r⟩ := FntCode.exists_root hc
  obtain ⟨a, h1, h2, h3⟩ := exists_marked_row hc r hk
  have h256 : 256 ^ c.w = 2 ^ (8 * c.w) := by rw [pow_mul]; norm_num
  let data : Array (List Nat) := Array.ofFn (fun i : Fin c.k => flat c.w (fun t => if t < J then gt a i.1 else 0) T)
  have hg : ∀ i, i < c.k → gt data i = flat c.w (fun t => if t < J then gt a i else 0) T := fun i hi => gt_ofFn hi
  have hd : c.Data data T := by
    refine ⟨by simp [data], fun i hi x hx => ?_, fun i hi => by rw [hg i hi, flat_length]⟩
    rw [hg i hi] at hx
    unfold flat at hx
    obtain ⟨t, _, h⟩ := List.mem_flatMap.mp hx
    exact leBytes_lt _ _ _ h
  refine ⟨data, hd, fun frags fprops he => ?_⟩
  have hI := he.isCode hd r
  have h0 : 0 < c.nOut := by unfold FntCode.nOut; have := hc.hm; split <;> omega
  have hrow : ∀ t, t < T → ∀ i, i < c.k → gt (FntCode.row c data t) i = if t < J then gt a i else 0 := fun t ht i hi => by
    unfold FntCode.row
    rw [rowAt_gt hi, hg i hi, wordAt_flat ht]
    split
    · rw [h256]; exact h2 i
    · rw [h256]; positivity
  have hrs : ∀ t, (FntCode.row c data t).size = c.k := fun t => by simp [FntCode.row, rowAt]
  have hsym : ∀ t, t < T → FntCode.mark g c.w c.sys c.k (FntCode.row c data t) 0 = if t < J then some OOR_MARK else none := fun t ht => by
    unfold FntCode.mark
    by_cases hJt : t < J
    · have : FntCode.row c data t = a := gt_ext (by rw [hrs, h1]) (fun i hi => by
        rw [hrs] at hi
        rw [hrow t ht i hi, if_pos hJt])
      rw [this, h3, if_pos rfl, if_pos hJt]
    · rw [zero_row hc (fun i => by
        by_cases hi : i < c.k
        · rw [hrow t ht i hi, if_neg hJt]
        · rw [gt_oob (by rw [hrs]; omega)]), if_neg (by have : 0 < 2 ^ (8 * c.w) := by positivity
                                                        omega), if_neg hJt]
  rw [hI.prop 0 h0]
  have : marksOf (fun t => FntCode.mark g c.w c.sys c.k (FntCode.row c data t) 0) T = marksOf (fun t => if t < J then some OOR_MARK else none) T := by
    unfold marksOf
    refine List.filterMap_congr (fun t ht => ?_)
    exact congrArg _ (hsym t (List.mem_range.mp ht))
  simp only [this]
  rw [marksOf_length_lt (J := J) (fun t ht => by simp [ht]) (fun t ht => by simp; omega)]
  omega

/-- with one data fragment no symbol is marked -/
theorem one_data (hc : c.Ok) (hk : c.k = 1) {data frags : Array (List Nat)} {fprops : Array Properties} {T : Nat} (hd : c.Data data T)
    (he : c.Encoded data frags fprops) {f : Nat} (hf : f < c.nOut) : (gt fprops f).props = [] := by
  obtain ⟨p, n, _, g, r⟩ := FntCode.exists_root hc
  have hI := he.isCode hd r
  haveI : NeZero p := ⟨(Fact.out : p.Prime).ne_zero⟩
  have h256 : 256 ^ c.w = 2 ^ (8 * c.w) := by rw [pow_mul]; norm_num
  have hsym : ∀ t, symbol g c.sys c.k (FntCode.row c data t) f < 2 ^ (8 * c.w) := fun t => by
    have hlt : gt (FntCode.row c data t) 0 < 2 ^ (8 * c.w) := by
      rw [← h256]
      exact (rowAt_isRow hd.bytes t).2 0 (by omega)
    have hP : rowPoly g c.sys c.k (FntCode.row c data t) = Polynomial.C ((gt (FntCode.row c data t) 0 : Nat) : ZMod p) := by
      unfold rowPoly
      rw [hk]
      split
      · rw [range_one, Lagrange.interpolate_singleton]
      · rw [show (FntCode.row c data t).size = 1 by simp [FntCode.row, rowAt, hk], range_one, sum_singleton, pow_zero, mul_one]
    unfold symbol
    rw [hP, eval_C, ZMod.val_natCast, Nat.mod_eq_of_lt (by have := r.ne; omega)]
    exact hlt
  rw [hI.prop f hf]
  refine List.eq_nil_iff_forall_not_mem.mpr (fun x hx => ?_)
  obtain ⟨_, h⟩ := mem_marksOf.mp hx
  unfold FntCode.mark at h
  rw [if_neg (by have := hsym x.1; omega)] at h
  cases h

theorem props_length_le (hc : c.Ok) {data frags : Array (List Nat)} {fprops : Array Properties} {T : Nat} (hd : c.Data data T)
    (he : c.Encoded data frags fprops) {f : Nat} (hf : f < c.nOut) : (gt fprops f).props.length ≤ T := by
  obtain ⟨p, n, _, g, r⟩ := FntCode.exists_root hc
  rw [(he.isCode hd r).prop f hf]
  exact marksOf_length_le _ _

/-- blocks for given data -/
theorem exists_mem {bs : Nat} {data : Array (List Nat)} (hd : c.Data data (bs / c.w)) : ∃ U, c.Mem bs U ∧ c.dataOf bs U = data := by
  have hTb : bs / c.w * c.w ≤ bs := Nat.div_mul_le_self _ _
  let blk : Nat → Array Nat := fun i => (List.replicate (metadata_size bs) 0 ++ (if i < c.k then gt data i else List.replicate (bs / c.w * c.w) 0) ++
    List.replicate (bs - bs / c.w * c.w) 0).toArray
  let U := Array.ofFn (fun i : Fin (c.k + c.m) => blk i.1)
  have hg : ∀ i, i < c.k + c.m → gt U i = blk i := fun i hi => gt_ofFn hi
  have hB : ∀ i, i < c.k + c.m → Block bs (blk i) := fun i hi => by
    refine ⟨?_, fun x hx => ?_⟩
    · by_cases hik : i < c.k
      · simp [blk, hik, hd.len i hik]; omega
      · simp [blk, hik]; omega
    · simp only [blk, List.mem_append, List.mem_replicate] at hx
      rcases hx with (hx | hx) | hx
      · omega
      · split at hx
        · rename_i hik
          exact hd.bytes i hik x hx
        · have := (List.mem_replicate.mp hx).2; omega
      · omega
  refine ⟨U, ⟨by simp [U], fun i hi => by rw [hg i hi]; exact hB i hi⟩, ?_⟩
  apply gt_ext (by rw [hd.size]; simp [FntCode.dataOf])
  intro i hi
  have hi' : i < c.k := by simpa [FntCode.dataOf] using hi
  rw [dataOf_gt hi', hg i (by omega)]
  unfold payload
  simp only [blk, if_pos hi']
  rw [List.append_assoc, List.drop_left' (by simp), List.take_left' (by rw [hd.len i hi'])]

end Quad.CApi
