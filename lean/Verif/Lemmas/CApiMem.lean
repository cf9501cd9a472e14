import Verif.Lemmas.CApiSim
import Verif.Lemmas.CApiMeta
import Verif.Props.FecVert

/-!
# Encoding and decoding in the caller's memory, byte by byte
-/

namespace Quad.CApi
open Quad.Spec Quad.Props

/-- what is in memory from a pointer on -/
def viewP (U : Array (Array Nat)) (p : Ptr) : Option (Array Nat) := p.map (fun q => (gt U q.1).extract q.2 (gt U q.1).size)

theorem viewP_some {U : Array (Array Nat)} {q : Nat × Nat} (h : q.2 ≤ (gt U q.1).size) : ∃ d, viewP U (some q) = some d ∧
    (gt U q.1).size = q.2 + d.size ∧ ∀ x, gt d x = gt (gt U q.1) (q.2 + x) := by
  refine ⟨_, rfl, by simp; omega, fun x => ?_⟩
  by_cases hx : q.2 + x < (gt U q.1).size
  · rw [gt_extract (by omega) (le_refl _)]
  · rw [gt_oob (by simp; omega), gt_oob (by omega)]

theorem at_viewP {U : Array (Array Nat)} {q : Nat × Nat} (h1 : q.1 < U.size) (h2 : q.2 ≤ (gt U q.1).size) : At 0 U (some q) (viewP U (some q)) := by
  obtain ⟨d, e, s, b⟩ := viewP_some h2
  intro d' hd'
  rw [e] at hd'
  cases hd'
  exact ⟨q, rfl, h1, s, fun x _ => (b x).symm⟩

/-- the bytes at a pointer start with `s` -/
structure Holds (U : Array (Array Nat)) (p : Ptr) (s : List Nat) : Prop where
  ex : ∃ q, p = some q ∧ q.1 < U.size ∧ q.2 + s.length ≤ (gt U q.1).size ∧ (∀ x, gt (gt U q.1) x < 256) ∧
    ∀ y, y < s.length → gt (gt U q.1) (q.2 + y) = s.getD y 0

theorem getD_toList (a : Array Nat) (i : Nat) : a.toList.getD i 0 = gt a i := by
  unfold gt
  rw [Array.getD_eq_getD_getElem?, List.getD_eq_getElem?_getD, Array.getElem?_toList]; rfl

theorem prefix_of_getD {s l : List Nat} (h : s.length ≤ l.length) (hb : ∀ y, y < s.length → l.getD y 0 = s.getD y 0) : s <+: l := by
  rw [List.prefix_iff_eq_take]
  apply List.ext_getElem
  · simp; omega
  · intro i h1 h2
    have := hb i h1
    rw [List.getD_eq_getElem _ _ h1, List.getD_eq_getElem _ _ (by omega)] at this
    rw [List.getElem_take, this]

theorem Holds.starts {U : Array (Array Nat)} {p : Ptr} {s : List Nat} (h : Holds U p s) : StartsWith (viewP U p) s := by
  obtain ⟨q, rfl, h1, h2, h3, h4⟩ := h.ex
  obtain ⟨d, e, z, b⟩ := viewP_some (q := q) (U := U) (by omega)
  refine ⟨d, e, ?_, ?_⟩
  · intro x hx
    obtain ⟨i, hi, rfl⟩ := List.mem_iff_getElem.mp hx
    have : d.toList[i] = gt d i := by
      rw [gt_eq (by simpa using hi)]; simp
    rw [this, b]
    exact h3 _
  · apply prefix_of_getD
    · simp; omega
    · intro y hy
      rw [getD_toList, b, h4 y hy]

theorem Holds.at {U : Array (Array Nat)} {p : Ptr} {s : List Nat} (h : Holds U p s) : At 0 U p (viewP U p) := by
  obtain ⟨q, rfl, h1, h2, _⟩ := h.ex
  exact at_viewP h1 (by omega)

theorem gt_appendDrop {s : List Nat} {d : Array Nat} {n : Nat} (hs : s.length = n) (y : Nat) :
    gt (s ++ d.toList.drop n).toArray y = if y < n then s.getD y 0 else gt d y := by
  have : gt (s ++ d.toList.drop n).toArray y = (s ++ d.toList.drop n).getD y 0 := by rw [← getD_toList]
  rw [this]
  split
  · rw [List.getD_append _ _ _ _ (by omega)]
  · rw [List.getD_append_right _ _ _ _ (by omega), ← getD_toList, List.getD_eq_getElem?_getD, List.getD_eq_getElem?_getD, List.getElem?_drop]
    congr 2; omega

/-- an object of the C library -/
structure Obj (c : FntCode) (R : RsFntObj) : Prop where
  sys : R.code.base.sys = c.sys
  w : R.code.base.word_size = c.w
  k : R.code.base.n_data = c.k
  m : R.code.base.n_parities = c.m
  len : R.code.base.code_len = c.k + c.m
  out : R.code.base.n_outputs = c.nOut

theorem mkBase_fields {b db w k m pkt : Nat} {sys : Bool} {mem : Nat → Nat} {B : FecBase}
    (h : RsFnt.mkBase b db sys w k m pkt mem = .ok B) :
    B.sys = sys ∧ B.word_size = w ∧ B.n_data = k ∧ B.n_parities = m ∧ B.code_len = k + m ∧ B.n_outputs = if sys then m else k + m := by
  unfold RsFnt.mkBase at h
  obtain ⟨_, _, h⟩ := bind_ok h
  simp only at h
  obtain ⟨_, _, h⟩ := bind_ok h
  obtain ⟨_, _, h⟩ := bind_ok h
  obtain ⟨_, _, h⟩ := bind_ok h
  obtain ⟨_, _, h⟩ := bind_ok h
  obtain ⟨_, _, h⟩ := bind_ok h
  obtain ⟨_, _, h⟩ := bind_ok h
  obtain ⟨_, _, h⟩ := bind_ok h
  obtain ⟨_, _, h⟩ := bind_ok h
  obtain ⟨_, _, h⟩ := bind_ok h
  obtain ⟨_, _, h⟩ := bind_ok h
  obtain ⟨_, _, h⟩ := bind_ok h
  obtain ⟨_, _, h⟩ := bind_ok h
  obtain ⟨_, _, h⟩ := bind_ok h
  cases h
  exact ⟨rfl, rfl, rfl, rfl, rfl, rfl⟩

theorem obj_of {c : FntCode} (hc : c.Ok) {pkt : Nat} {R : RsFntObj} {C : CtxB} {H : Heap} (h : c.Reachable pkt R C H) : Obj c R := by
  induction h with
  | new h =>
    obtain ⟨p, n, _, g, r⟩ := FntCode.exists_root hc
    obtain ⟨simd, hsimd, mem, junk, H0, e⟩ := h
    obtain ⟨H', R', e', hB, _⟩ := r.new simd hsimd pkt mem junk H0
    rw [e] at e'
    cases e'
    obtain ⟨h1, h2, h3, h4, h5, h6⟩ := mkBase_fields hB
    exact ⟨h1, h2, h3, h4, h5, h6⟩
  | alloc _ _ _ ih => exact ih
  | encode _ _ _ ih => exact ih
  | decode _ _ _ _ _ ih => exact ih
  | encodeBlocks _ _ _ _ _ _ _ _ ih => exact ih
  | decodeBlocks _ _ _ _ _ _ _ _ ih => exact ih
  | decodeAny _ _ _ ih => exact ih
  | decodeBlocksAny _ _ _ _ _ _ ih => exact ih
  | sessions _ _ _ ih => exact ih

variable {c : FntCode} {pkt : Nat} {R : RsFntObj} {C : CtxB} {H : Heap} {data frags : Array (List Nat)} {fprops : Array Properties} {T bs : Nat}

theorem Frame.range {tp : Array Ptr} {wanted : Array Bool} {n : Nat} {U U' : Array (Array Nat)}
    (h : Frame tp wanted n (fun _ => True) U U') {b x : Nat}
    (hx : ∀ f base, f < n → gt wanted f = true → gt tp f = some (b, base) → x < base) : gt (gt U' b) x = gt (gt U b) x :=
  (h.2 b).2 x (fun f base h1 h2 h3 => .inl (hx f base h1 h2 h3))

theorem encodeU_mem (hc : c.Ok) (hd : c.Data data T) (he : c.Encoded data frags fprops) (hb : bs / c.w = T) (hpkt : 0 < pkt)
    (hr : c.Reachable pkt R C H) {U : Array (Array Nat)} {dp tp : Array Ptr} {props : Array Properties} {wanted : Array Bool} (junk : Nat → Nat → Nat)
    (hdp : dp.size = c.k) (hsrc : ∀ i, i < c.k → Holds U (gt dp i) (gt data i)) (htp : tp.size = c.nOut)
    (htgt : ∀ f, f < c.nOut → gt wanted f = true → ∃ q, gt tp f = some q ∧ q.1 < U.size ∧ q.2 + T * c.w ≤ (gt U q.1).size)
    (hdist : Distinct tp c.nOut) (hcomp : Compatible dp tp c.nOut) (hp : props.size = c.nOut) (hw : c.nOut ≤ wanted.size) :
    ∃ U' C' H', encodeU (R.fecV c.b) C dp tp props wanted bs junk U H = .ok (U', fprops, C', H') ∧ c.Reachable pkt R C' H' ∧ U'.size = U.size ∧
      (∀ b, (gt U' b).size = (gt U b).size) ∧
      (∀ f q y, f < c.nOut → gt wanted f = true → gt tp f = some q → y < T * c.w → gt (gt U' q.1) (q.2 + y) = (gt frags f).getD y 0) ∧
      ∀ b x, (∀ f base, f < c.nOut → gt wanted f = true → gt tp f = some (b, base) → x < base ∨ base + T * c.w ≤ x) → gt (gt U' b) x = gt (gt U b) x := by
  have hO := obj_of hc hr
  have hout : (R.fecV c.b).base.n_outputs = c.nOut := hO.out
  let datas : Array (Option (Array Nat)) := Array.ofFn (fun i : Fin c.k => viewP U (gt dp i))
  let pars : Array (Option (Array Nat)) := Array.ofFn (fun f : Fin c.nOut => if gt wanted f then viewP U (gt tp f) else none)
  have hpg : ∀ f, f < c.nOut → gt pars f = if gt wanted f then viewP U (gt tp f) else none := fun f hf => gt_ofFn hf
  obtain ⟨fr, fp, _, _, hfl, huniq, _⟩ := C36_streams_unique_partial hc hd
  obtain ⟨rfl, rfl⟩ := (huniq frags fprops).mp he
  obtain ⟨o, C', H', e, z1, z2, z3⟩ := C36_blocks hc hd he hb hpkt hr (datas := datas) (pars := pars) (props := props) (wanted := wanted) junk
    (by simp [datas]) (fun i hi => by rw [show gt datas i = _ from gt_ofFn hi]; exact (hsrc i hi).starts) (by simp [pars]) hp hw
    (fun f hf hwf => by
      obtain ⟨q, h1, h2, h3⟩ := htgt f hf hwf
      obtain ⟨d, h4, h5, h6⟩ := viewP_some (U := U) (q := q) (by omega)
      exact ⟨d, by rw [hpg f hf, if_pos hwf, h1, h4], by omega⟩)
  obtain ⟨U', e', t, f'⟩ := encodeU_sim (E := R.fecV c.b) (dp := dp) (tp := tp) (U := U) e (by simp [datas, hdp]) (by simp [pars, htp])
    (by rw [hout]; exact hdist) (by rw [hout]; exact hcomp)
    (fun j hj => by
      have hj' : j < c.k := by simpa [datas] using hj
      rw [show gt datas j = _ from gt_ofFn hj']; exact (hsrc j hj').at)
    (fun f hf => by
      rw [hout] at hf
      rw [hpg f hf]
      split
      · rename_i hwf
        obtain ⟨q, h1, h2, h3⟩ := htgt f hf hwf
        rw [h1]; exact at_viewP h2 (by omega)
      · intro d hd; cases hd)
  rw [hout] at t f'
  have key : ∀ f q, f < c.nOut → gt wanted f = true → gt tp f = some q → ∀ y, gt (gt U' q.1) (q.2 + y)
      = if y < T * c.w then (gt frags f).getD y 0 else gt (gt U q.1) (q.2 + y) := by
    intro f q hf hwf hq y
    obtain ⟨q', h1, h2, h3⟩ := htgt f hf hwf
    rw [hq] at h1; cases h1
    obtain ⟨d, h4, h5, h6⟩ := viewP_some (U := U) (q := q) (by omega)
    have ho := z2 f hf
    rw [if_pos hwf, hpg f hf, if_pos hwf, hq, h4] at ho
    obtain ⟨q'', k1, k2, k3, k4⟩ := t f hf _ ho
    rw [hq] at k1; cases k1
    rw [k4 y (by omega), gt_appendDrop (hfl f hf), h6]
  refine ⟨U', C', H', e', z3, f'.1, fun b => (f'.2 b).1, fun f q y hf hwf hq hy => by rw [key f q hf hwf hq, if_pos hy], fun b x hx => ?_⟩
  by_cases hex : ∃ f base, f < c.nOut ∧ gt wanted f = true ∧ gt tp f = some (b, base) ∧ base ≤ x
  · obtain ⟨f, base, h1, h2, h3, h4⟩ := hex
    have := key f (b, base) h1 h2 h3 (x - base)
    simp only at this
    rw [show base + (x - base) = x by omega, if_neg (by have := hx f base h1 h2 h3; omega)] at this
    exact this
  · push Not at hex
    exact f'.range (fun f base h1 h2 h3 => hex f base h1 h2 h3)

theorem decodeU_mem (hc : c.Ok) (hd : c.Data data T) (he : c.Encoded data frags fprops) (hb : bs / c.w = T) (hpkt : 0 < pkt)
    (hr : c.Reachable pkt R C H) {U : Array (Array Nat)} {dp tp : Array Ptr} {props : Array Properties} {missing wanted : Array Bool}
    (mem : Nat → Nat) (junk : Nat → Nat → Nat) (hdp : dp.size = c.nOut) (htp : tp.size = c.k) (hp : props.size = c.nOut) (hms : missing.size = c.k + c.m)
    (hpar : ∀ f, f < c.nOut → gt missing (if c.sys then c.k + f else f) = false → Holds U (gt dp f) (gt frags f) ∧ gt props f = gt fprops f)
    (hdat : c.sys = true → ∀ i, i < c.k → gt missing i = false → Holds U (gt tp i) (gt data i))
    (htgt : ∀ i, i < c.k → gt wanted i = true → ∃ q, gt tp i = some q ∧ q.1 < U.size ∧ q.2 + T * c.w ≤ (gt U q.1).size)
    (hdist : Distinct tp c.k) (hcomp : Compatible dp tp c.k) (hw : c.k ≤ wanted.size) (henough : c.k ≤ missing.toList.count false) :
    ∃ U' H', decodeU (R.fecV c.b) tp dp props missing wanted bs mem junk U H = .ok (true, U', H') ∧ c.Reachable pkt R C H' ∧ U'.size = U.size ∧
      (∀ b, (gt U' b).size = (gt U b).size) ∧
      (∀ i q y, i < c.k → (gt wanted i = true ∨ c.sys = true ∧ gt missing i = false) → gt tp i = some q → y < T * c.w → gt (gt U' q.1) (q.2 + y) = (gt data i).getD y 0) ∧
      ∀ b x, (∀ i base, i < c.k → gt wanted i = true → gt tp i = some (b, base) → x < base ∨ base + T * c.w ≤ x) → gt (gt U' b) x = gt (gt U b) x := by
  have hO := obj_of hc hr
  have hout : (R.fecV c.b).base.n_outputs = c.nOut := hO.out
  have hk : (R.fecV c.b).base.n_data = c.k := hO.k
  have hsy : (R.fecV c.b).base.sys = c.sys := hO.sys
  have hmsz : missing.size = if c.sys then c.k + c.m else c.nOut := by unfold FntCode.nOut; split <;> omega
  let sees : Nat → Bool := fun i => gt wanted i || (c.sys && !gt missing i)
  let datas : Array (Option (Array Nat)) := Array.ofFn (fun i : Fin c.k => if sees i then viewP U (gt tp i) else none)
  let pars : Array (Option (Array Nat)) := Array.ofFn (fun f : Fin c.nOut =>
    if gt missing (if c.sys then c.k + f.1 else f.1) = false then viewP U (gt dp f) else none)
  have hdg : ∀ i, i < c.k → gt datas i = if sees i then viewP U (gt tp i) else none := fun i hi => gt_ofFn hi
  have hpg : ∀ f, f < c.nOut → gt pars f = if gt missing (if c.sys then c.k + f else f) = false then viewP U (gt dp f) else none :=
    fun f hf => gt_ofFn hf
  have hdl : ∀ i, i < c.k → (gt data i).length = T * c.w := hd.len
  have hat : ∀ i, i < c.k → sees i = true → ∃ q, gt tp i = some q ∧ q.1 < U.size ∧ q.2 + T * c.w ≤ (gt U q.1).size := by
    intro i hi hs
    by_cases hwi : gt wanted i = true
    · exact htgt i hi hwi
    · have h2 : c.sys = true ∧ gt missing i = false := by simpa [sees, hwi] using hs
      obtain ⟨q, h3, h4, h5, _⟩ := (hdat h2.1 i hi h2.2).ex
      exact ⟨q, h3, h4, by rw [hdl i hi] at h5; exact h5⟩
  have hsb : c.SurvivingBlocks data frags fprops datas pars props missing := by
    refine ⟨by simp [datas], by simp [pars], hp, hmsz, fun hs i hi hm => ?_, fun f hf hm => ?_⟩
    · rw [hdg i hi, if_pos (by simp [sees, hs, hm])]
      exact (hdat hs i hi hm).starts
    · rw [hpg f hf, if_pos hm]
      exact ⟨(hpar f hf hm).1.starts, (hpar f hf hm).2⟩
  have hw2 : ∀ i, i < c.k → gt wanted i = true → ∃ d, gt datas i = some d ∧ T * c.w ≤ d.size := by
    intro i hi hwi
    obtain ⟨q, h1, h2, h3⟩ := htgt i hi hwi
    obtain ⟨d, h4, h5, h6⟩ := viewP_some (U := U) (q := q) (by omega)
    exact ⟨d, by rw [hdg i hi, if_pos (by simp [sees, hwi]), h1, h4], by omega⟩
  have hres : ∃ o H', (R.fecV c.b).decode_blocks_vertical datas pars props missing wanted bs mem junk H = .ok (true, o, H') ∧
      c.Reachable pkt R C H' ∧ (o = datas ∧ c.sys = true ∧ (∀ i, i < c.k → gt missing i = false) ∨
        ∀ i, i < c.k → gt o i = if gt wanted i then (gt datas i).map (fun d => (gt data i ++ d.toList.drop (T * c.w)).toArray) else gt datas i) := by
    by_cases hall : c.sys = true ∧ ∀ i, i < c.k → gt missing i = false
    · have := (C26_blocks (R.fecV c.b) (datas := datas) (pars := pars) (props := props) (missing := missing) (wanted := wanted) bs mem junk H
        (by rw [hk]; exact hc.hk) (by rw [hk]; simp [datas]) (by rw [hout]; simp [pars]) (by rw [hout]; exact hp)
        (by rw [hsy, hk, hout, hmsz]; unfold FntCode.nOut; split <;> rfl)).2 (by rw [hsy]; exact hall.1) (by rw [hk]; exact hall.2)
      exact ⟨datas, H, this, hr.decodeBlocks hd hb he hsb hw hw2 this, .inl ⟨rfl, hall⟩⟩
    · obtain ⟨o, H', e, _, q, r⟩ := C23_blocks hc hd he hb hpkt hr hsb mem junk hw hw2 (fun hs => by
        by_contra hcon
        push Not at hcon
        exact hall ⟨hs, fun i hi => by simpa using hcon i hi⟩) henough
      exact ⟨o, H', e, r, .inr q⟩
  obtain ⟨o, H', e, hr', ho⟩ := hres
  obtain ⟨U', e', t, f'⟩ := decodeU_sim (E := R.fecV c.b) (dp := dp) (tp := tp) (U := U) e (by simp [pars, hdp]) (by simp [datas, htp])
    (by rw [hk]; simp [datas]) (by rw [hk]; exact hdist) (by rw [hk]; exact hcomp)
    (fun j hj => by
      have hj' : j < c.nOut := by simpa [pars] using hj
      rw [hpg j hj']
      by_cases hm : gt missing (if c.sys then c.k + j else j) = false
      · rw [if_pos hm]
        exact (hpar j hj' hm).1.at
      · rw [if_neg hm]; intro d hd; cases hd)
    (fun i hi => by
      rw [hk] at hi
      rw [hdg i hi]
      split
      · rename_i hs
        obtain ⟨q, h1, h2, h3⟩ := hat i hi hs
        rw [h1]; exact at_viewP h2 (by omega)
      · intro d hd; cases hd)
  rw [hk] at t f'
  have key : ∀ i q, i < c.k → gt wanted i = true → gt tp i = some q → ∀ y, gt (gt U' q.1) (q.2 + y)
      = if y < T * c.w then (gt data i).getD y 0 else gt (gt U q.1) (q.2 + y) := by
    intro i q hi hwi hq y
    obtain ⟨q', h1, h2, h3⟩ := htgt i hi hwi
    rw [hq] at h1; cases h1
    obtain ⟨d, h4, h5, h6⟩ := viewP_some (U := U) (q := q) (by omega)
    have hdi : gt datas i = some d := by rw [hdg i hi, if_pos (by simp [sees, hwi]), hq, h4]
    rcases ho with ⟨rfl, hs, hall⟩ | ho
    · obtain ⟨q'', k1, k2, k3, k4⟩ := t i hi _ hdi
      rw [hq] at k1; cases k1
      rw [k4 y (by omega), h6]
      split
      · rename_i hy
        obtain ⟨q3, n1, n2, n3, n4, n5⟩ := (hdat hs i hi (hall i hi)).ex
        rw [hq] at n1; cases n1
        exact n5 y (by rw [hdl i hi]; exact hy)
      · rfl
    · have ho := ho i hi
      rw [if_pos hwi, hdi] at ho
      obtain ⟨q'', k1, k2, k3, k4⟩ := t i hi _ ho
      rw [hq] at k1; cases k1
      rw [k4 y (by omega), gt_appendDrop (hdl i hi), h6]
  have hframe : ∀ b x, (∀ i base, i < c.k → gt wanted i = true → gt tp i = some (b, base) → x < base ∨ base + T * c.w ≤ x) →
      gt (gt U' b) x = gt (gt U b) x := by
    intro b x hx
    by_cases hex : ∃ f base, f < c.k ∧ gt wanted f = true ∧ gt tp f = some (b, base) ∧ base ≤ x
    · obtain ⟨f, base, h1, h2, h3, h4⟩ := hex
      have := key f (b, base) h1 h2 h3 (x - base)
      simp only at this
      rw [show base + (x - base) = x by omega, if_neg (by have := hx f base h1 h2 h3; omega)] at this
      exact this
    · push Not at hex
      exact f'.range (fun f base h1 h2 h3 => hex f base h1 h2 h3)
  refine ⟨U', H', e', hr', f'.1, fun b => (f'.2 b).1, fun i q y hi hs hq hy => ?_, hframe⟩
  by_cases hwi : gt wanted i = true
  · rw [key i q hi hwi hq, if_pos hy]
  · have h2 : c.sys = true ∧ gt missing i = false := by simpa [hwi] using hs
    obtain ⟨q3, n1, n2, n3, n4, n5⟩ := (hdat h2.1 i hi h2.2).ex
    rw [hq] at n1; cases n1
    rw [← n5 y (by rw [hdl i hi]; exact hy)]
    refine hframe _ _ (fun f base h1 h3 h4 => ?_)
    have := hdist f i q.1 base q.2 h1 hi h4 hq
    subst this
    exact absurd h3 hwi

end Quad.CApi
