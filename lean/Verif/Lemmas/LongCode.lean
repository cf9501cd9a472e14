import Mathlib.Data.Fintype.BigOperators
import Mathlib.Data.Fintype.Pigeonhole
import Verif.Lemmas.FecFftAddBuild
import Verif.Lemmas.Buffers
import Verif.Lemmas.AnyBasis

/-!
# Codes with more parities than their alphabet has words

No code recovers two or more data words over an alphabet of `q` words from any of the fragments when it has `q` parities or more:
this is a count that does not depend on the code.
-/

namespace Quad
open Finset Spec

/-- two messages have the same words in as many places as there are data words -/
theorem long_code {q k m : Nat} (hq : 2 ≤ q) (hk : 2 ≤ k) (hm : q ≤ m) (enc : (Fin k → Fin q) → Fin (k + m) → Fin q) :
    ∃ x y, x ≠ y ∧ ∃ e : Fin k → Fin (k + m), Function.Injective e ∧ ∀ i, enc x (e i) = enc y (e i) := by
  by_contra hc
  push Not at hc
  have hinj : ∀ e : Fin k → Fin (k + m), Function.Injective e → Function.Injective (fun x i => enc x (e i)) := by
    intro e he x y hxy
    by_contra hne
    obtain ⟨i, hi⟩ := hc x y hne e he
    exact hi (congrFun hxy i)
  have hsurj : ∀ e : Fin k → Fin (k + m), Function.Injective e → Function.Surjective (fun x i => enc x (e i)) := by
    intro e he
    exact ((Fintype.bijective_iff_injective_and_card _).2 ⟨hinj e he, rfl⟩).2
  -- the first `k - 1` places and place `k - 1 + j`
  let e1 : Fin (m + 1) → Fin k → Fin (k + m) := fun j i => if i.val = k - 1 then ⟨k - 1 + j.val, by omega⟩ else ⟨i.val, by omega⟩
  have he1 : ∀ j, Function.Injective (e1 j) := by
    intro j a b hab
    have h := congrArg Fin.val hab
    simp only [e1] at h
    ext
    split at h <;> split at h <;> simp only at h <;> omega
  let x0 : Fin k → Fin q := fun _ => ⟨0, by omega⟩
  let p : Fin (k + m) := ⟨k - 2, by omega⟩
  obtain ⟨v, hv⟩ : ∃ v : Fin q, v ≠ enc x0 p := by
    haveI : Nontrivial (Fin q) := Fin.nontrivial_iff_two_le.2 hq
    exact exists_ne _
  have hy : ∀ j : Fin (m + 1), ∃ y, ∀ i, enc y (e1 j i) = if i.val = k - 2 then v else enc x0 (e1 j i) := by
    intro j
    obtain ⟨y, hy⟩ := hsurj (e1 j) (he1 j) (fun i => if i.val = k - 2 then v else enc x0 (e1 j i))
    exact ⟨y, fun i => congrFun hy i⟩
  choose y hy using hy
  obtain ⟨j, j', hjj, hval⟩ := Fintype.exists_ne_map_eq_of_card_lt (fun j : Fin (m + 1) => enc (y j) ⟨k - 1, by omega⟩)
    (by simp only [Fintype.card_fin]; omega)
  have hlow : ∀ (j : Fin (m + 1)) (i : Nat) (hi : i < k - 1), enc (y j) ⟨i, by omega⟩ = if i = k - 2 then v else enc x0 ⟨i, by omega⟩ := by
    intro j i hi
    have := hy j ⟨i, by omega⟩
    simp only [e1] at this
    rw [if_neg (by omega)] at this
    exact this
  have hlast : ∀ j : Fin (m + 1), enc (y j) ⟨k - 1 + j.val, by omega⟩ = enc x0 ⟨k - 1 + j.val, by omega⟩ := by
    intro j
    have := hy j ⟨k - 1, by omega⟩
    simp only [e1] at this
    rw [if_pos trivial, if_neg (by omega)] at this
    exact this
  have hyy : y j = y j' := by
    refine hinj (e1 0) (he1 0) (funext fun i => ?_)
    simp only [e1]
    split
    · simpa using hval
    · rw [hlow j i.val (by omega), hlow j' i.val (by omega)]
  -- the first `k - 2` places and two more
  let e2 : Fin k → Fin (k + m) := fun i => if i.val = k - 1 then ⟨k - 1 + j.val, by omega⟩ else if i.val = k - 2 then ⟨k - 1 + j'.val, by omega⟩
    else ⟨i.val, by omega⟩
  have he2 : Function.Injective e2 := by
    intro a b hab
    have h := congrArg Fin.val hab
    have hne : j.val ≠ j'.val := fun h => hjj (Fin.ext h)
    simp only [e2] at h
    ext
    split at h <;> (try split at h) <;> (try split at h) <;> (try split at h) <;> simp only at h <;> omega
  have hx : y j = x0 := by
    refine hinj e2 he2 (funext fun i => ?_)
    simp only [e2]
    split
    · exact hlast j
    · split
      · rw [hyy]; exact hlast j'
      · rw [hlow j i.val (by omega), if_neg (by omega)]
  have := hlow j (k - 2) (by omega)
  rw [if_pos rfl, hx] at this
  exact hv this.symm

theorem forN_keeps {σ : Type} {n : Nat} {s s' : σ} {f : Nat → σ → Res σ} (P : σ → Prop) (h : forN n s f = .ok s') (h0 : P s)
    (hs : ∀ i s s', P s → f i s = .ok s' → P s') : P s' := by
  induction n generalizing s' with
  | zero => cases h; exact h0
  | succ n ih =>
    obtain ⟨t, e, h⟩ := bind_ok h
    exact hs n t s' (ih e) h

theorem wr_eq {α : Type} {a a' : Array α} {i : Nat} {x : α} (h : wr a i x = .ok a') : i < a.size ∧ a' = a.setIfInBounds i x := by
  unfold wr at h
  split at h
  · cases h; exact ⟨‹_›, by simp [*]⟩
  · cases h

theorem rd_eq {α : Type} [Inhabited α] {a : Array α} {i : Nat} {x : α} (h : rd a i = .ok x) : i < a.size ∧ x = gt a i := by
  by_cases hi : i < a.size
  · rw [rd_gt hi] at h
    cases h; exact ⟨hi, rfl⟩
  · unfold rd at h
    rw [Array.getElem?_eq_none (by omega)] at h
    cases h

namespace RsGf2nFftAdd

def Bytes (outs : Array (List Nat)) : Prop := ∀ f, ∀ x ∈ gt outs f, x < 256

theorem encLoop_bytes {c : Code} (fuel : Nat) {ins : Array (Option (List Nat))} {outs outs' : Array (List Nat)} {props props' : Array Properties}
    {words output : Array Nat} {offset : Nat} (h : (fec c).encLoop fuel ins outs props words output offset = .ok (outs', props'))
    (hb : Bytes outs) : Bytes outs' ∧ props' = props := by
  induction fuel generalizing ins outs props words output offset with
  | zero => cases h
  | succ fuel ih =>
    unfold Fec.encLoop at h
    obtain ⟨⟨ins1, words1, cont⟩, _, h⟩ := bind_ok h
    simp only at h
    cases cont with
    | false => cases h; exact ⟨hb, rfl⟩
    | true =>
      simp only [if_true] at h
      obtain ⟨⟨out1, props1⟩, e1, h2⟩ := bind_ok h
      clear h
      have hp : props1 = props := by
        obtain ⟨o, _, e1⟩ := bind_ok e1
        cases e1; rfl
      subst hp
      obtain ⟨outs1, e2, h3⟩ := bind_ok h2
      refine ih h3 (forN_keeps Bytes e2 hb ?_)
      intro i s s' hs e
      obtain ⟨v, _, e⟩ := bind_ok e
      obtain ⟨t, et, e⟩ := bind_ok e
      obtain ⟨t', et', e⟩ := bind_ok e
      obtain ⟨_, rfl⟩ := rd_eq et
      obtain ⟨_, _, et'⟩ := bind_ok et'
      cases et'
      obtain ⟨hi, rfl⟩ := wr_eq e
      intro f x hx
      rw [gt_set hi] at hx
      split at hx
      · rcases List.mem_append.1 hx with hx | hx
        · exact hs _ x hx
        · exact leBytes_lt _ _ x hx
      · exact hs f x hx

theorem encode_bytes {c : Code} {data outs : Array (List Nat)} {props : Array Properties} {n : Nat} {mem : Nat → Nat}
    (h : (fec c).encode_streams_horizontal data (Array.replicate n []) (Array.replicate n .empty) mem = .ok (outs, props)) :
    Bytes outs ∧ props = Array.replicate n ⟨[]⟩ := by
  unfold Fec.encode_streams_horizontal at h
  obtain ⟨_, _, h⟩ := bind_ok h
  obtain ⟨_, _, h⟩ := bind_ok h
  obtain ⟨_, _, h⟩ := bind_ok h
  have := encLoop_bytes _ h (fun f x hx => by
    by_cases hf : f < n
    · rw [gt_replicate hf] at hx; simp at hx
    · have : gt (Array.replicate n ([] : List Nat)) f = [] := by simp [gt, hf]; rfl
      rw [this] at hx; simp at hx)
  refine ⟨this.1, ?_⟩
  rw [this.2]
  simp [Properties.clear]

/-- no object of the class recovers from any `k` fragments when it has as many parities as there are words -/
theorem not_recovers {c : Code} {w k m : Nat} (hw : 0 < w) (hk : 2 ≤ k) (hm : 256 ^ w ≤ m) (mem : Nat → Nat) :
    ∃ data, Gf2nData w k data 1 ∧ ¬ NsRecovers (fec c) w k m mem data 1 := by
  by_contra hc
  push Not at hc
  have hq : 2 ≤ 256 ^ w := by
    calc 2 ≤ 256 ^ 1 := by norm_num
      _ ≤ 256 ^ w := Nat.pow_le_pow_right (by norm_num) hw
  let data : (Fin k → Fin (256 ^ w)) → Array (List Nat) := fun x => Array.ofFn fun i => leBytes w (x i).val
  have hd : ∀ x (i : Nat) (hi : i < k), gt (data x) i = leBytes w (x ⟨i, hi⟩).val := fun x i hi => gt_ofFn hi
  have hdata : ∀ x, Gf2nData w k (data x) 1 := by
    intro x
    refine ⟨by simp [data], fun i hi => ?_, fun i hi => ?_, 0, by omega, ?_⟩
    · rw [hd x i hi]; exact leBytes_lt _ _
    · rw [hd x i hi]; simp
    · rw [hd x 0 (by omega)]; simp; omega
  have key : ∀ x, ∃ frags : Array (List Nat), frags.size = k + m ∧ (∀ f, f < k + m → (gt frags f).length = w) ∧ Bytes frags ∧
      ∀ (datas pars outs : Array (Option (List Nat))) (mem' : Nat → Nat), pars.size = k + m → outs.size = k →
        (∀ f s, f < k + m → gt pars f = some s → s = gt frags f) → k ≤ nAvail pars →
        ∃ res, (fec c).decode_streams_horizontal datas pars (Array.replicate (k + m) ⟨[]⟩) outs mem' = .ok (true, res) ∧
          ∀ i, i < k → gt res i = (gt outs i).map (fun s => s ++ gt (data x) i) := by
    intro x
    obtain ⟨frags, fprops, e, hs, hl, h⟩ := hc (data x) (hdata x)
    obtain ⟨hb, rfl⟩ := encode_bytes e
    refine ⟨frags, hs, fun f hf => by rw [hl f hf, one_mul], hb, fun datas pars outs mem' h1 h2 h3 h4 => ?_⟩
    obtain ⟨res, er, _, hr⟩ := h datas pars outs (Array.replicate (k + m) ⟨[]⟩) mem' h1 (by simp) h2 (fun f s hf hp => ⟨h3 f s hf hp, rfl⟩) h4
    refine ⟨res, er, fun i hi => ?_⟩
    rw [hr i hi, hd x i hi, one_mul, List.take_of_length_le (by simp)]
  choose frags hs hl hb hdec using key
  let enc : (Fin k → Fin (256 ^ w)) → Fin (k + m) → Fin (256 ^ w) := fun x f => ⟨leVal (gt (frags x) f.val), by
    have := leVal_lt (hb x f.val)
    rwa [hl x f.val f.isLt] at this⟩
  obtain ⟨x, y, hne, e, he, hxy⟩ := long_code hq hk hm enc
  have hfr : ∀ i, gt (frags x) (e i).val = gt (frags y) (e i).val := by
    intro i
    have h1 := congrArg Fin.val (hxy i)
    simp only [enc] at h1
    rw [← leBytes_leVal (hb x (e i).val), ← leBytes_leVal (hb y (e i).val), h1, hl x _ (e i).isLt, hl y _ (e i).isLt]
  classical
  let pars : Array (Option (List Nat)) := Array.ofFn fun f : Fin (k + m) => if ∃ i, e i = f then some (gt (frags x) f.val) else none
  have hav : k ≤ nAvail pars := by
    have h1 : pars.toList = (List.finRange (k + m)).map fun f => if ∃ i, e i = f then some (gt (frags x) f.val) else none := by
      simp only [pars, Array.toList_ofFn, List.ofFn_eq_map]
    have h2 : (Finset.univ.image e).card = k := by
      rw [Finset.card_image_of_injective _ he, Finset.card_univ, Fintype.card_fin]
    unfold nAvail
    rw [h1, List.countP_map]
    refine h2.symm.le.trans ?_
    rw [List.countP_eq_length_filter]
    rw [← List.toFinset_card_of_nodup ((List.nodup_finRange _).filter _)]
    refine Finset.card_le_card fun f hf => ?_
    obtain ⟨i, _, rfl⟩ := Finset.mem_image.1 hf
    simp
  have hget : ∀ f s, f < k + m → gt pars f = some s → s = gt (frags x) f ∧ s = gt (frags y) f := by
    intro f s hf h
    simp only [pars] at h
    rw [gt_ofFn hf] at h
    split at h
    · rename_i hi
      obtain ⟨i, hi⟩ := hi
      have h' := Option.some.inj h
      refine ⟨h'.symm, ?_⟩
      rw [← h']
      have := hfr i
      rw [hi] at this
      exact this
    · cases h
  obtain ⟨r1, e1, d1⟩ := hdec x #[] pars (Array.replicate k (some [])) mem (by simp [pars]) (by simp) (fun f s hf h => (hget f s hf h).1) hav
  obtain ⟨r2, e2, d2⟩ := hdec y #[] pars (Array.replicate k (some [])) mem (by simp [pars]) (by simp) (fun f s hf h => (hget f s hf h).2) hav
  rw [e1] at e2
  cases e2
  refine hne (funext fun i => Fin.ext ?_)
  have := (d1 i.val i.isLt).symm.trans (d2 i.val i.isLt)
  rw [gt_replicate i.isLt, hd x _ i.isLt, hd y _ i.isLt] at this
  simp only [Option.map_some, List.nil_append, Option.some.injEq] at this
  rw [← leVal_leBytes (x i).isLt, ← leVal_leBytes (y i).isLt, this]

end RsGf2nFftAdd

namespace Additive
variable {K : Type} [Field K] {F : GF} [F.Plain] {S : F.Sim K}

/-- the transform is built on any elements of the field, independent or not, if division always returns -/
theorem mkB_total [CharP K 2] (hF : S.Full) (hadd : ∀ x y, F.add x y = x ^^^ y) (hinv : ∀ x, S.V x → ∃ y, F.inv x = .ok y ∧ (x ≠ 0 → S.V y))
    {b : Nat} (mem : Nat → Nat) :
    ∀ (m : Nat) (betas : Array Nat), betas.size = m + 1 → m + 1 < b → (∀ i, i < m + 1 → S.V (gt betas i)) →
      ∃ L Ls, mkB F b mem (m + 1) betas = .ok (L :: Ls) ∧ L.betas = betas ∧ WChain S (L :: Ls) m := by
  intro m
  induction m with
  | zero =>
    intro betas hs hb hβ
    have v0 := hβ 0 (by omega)
    obtain ⟨iv, ei, _⟩ := hinv _ v0
    obtain ⟨P, eP, sP, hP⟩ := compute_beta_m_powers_spec hF (n := 2 ^ (0 + 1)) (by norm_num) v0 mem
    unfold mkB
    rw [Arith.exp2_eq hb, ok_bind, rd_gt (by omega), ok_bind, ei, ok_bind, ok_bind, ei, ok_bind, eP, ok_bind, Arith.exp2_eq (show 0 < b by omega), ok_bind,
      if_neg (show ¬ 0 + 1 > 1 by omega)]
    exact ⟨_, _, rfl, rfl, rfl, rfl, rfl, v0, sP, fun i hi => (hP i hi).1, trivial⟩
  | succ m ih =>
    intro betas hs hb hβ
    have hpow : 2 ≤ 2 ^ (m + 1 + 1) := by rw [pow_succ]; have : 0 < 2 ^ (m + 1) := by positivity
                                          omega
    have v0 := hβ 0 (by omega)
    have vm := hβ (m + 1) (by omega)
    obtain ⟨iv, ei, _⟩ := hinv _ v0
    obtain ⟨iw, ew, vw⟩ := hinv _ vm
    obtain ⟨P, eP, sP, hP⟩ := compute_beta_m_powers_spec hF (n := 2 ^ (m + 1 + 1)) hpow vm mem
    obtain ⟨⟨gs, ds⟩, eg, sg, sd, hg, hd⟩ := forN_inv (n := m + 1) (s := (fresh mem (m + 1), fresh mem (m + 1)))
      (f := fun i (s : Array Nat × Array Nat) => do
        let x ← rd betas i
        let gamma := if gt betas (m + 1) > 1 then F.mul iw x else x
        let g ← wr s.1 i gamma
        let d ← wr s.2 i (F.add (F.exp gamma 2) gamma)
        pure (g, d))
      (I := fun k (s : Array Nat × Array Nat) => s.1.size = m + 1 ∧ s.2.size = m + 1 ∧
        (∀ i, i < k → S.V (gt s.1 i)) ∧ (∀ i, i < k → S.V (gt s.2 i)))
      ⟨by simp, by simp, fun i hi => by omega, fun i hi => by omega⟩ (by
        rintro k ⟨g, d⟩ hk ⟨i1, i2, i3, i4⟩
        simp only at i1 i2 i3 i4 ⊢
        have vk := hβ k (by omega)
        have hgam : S.V (if gt betas (m + 1) > 1 then F.mul iw (gt betas k) else gt betas k) := by
          split
          · exact (S.mul (vw (by omega)) vk).1
          · exact vk
        have hexp := S.exp (e := 2) hgam
        have hdel := S.add hexp.1 hgam
        refine ⟨_, by rw [rd_gt (by omega), ok_bind, wr_ok (by omega), ok_bind, wr_ok (by omega), ok_bind]; rfl,
          by simpa using i1, by simpa using i2, fun i hi => ?_, fun i hi => ?_⟩
        · simp only
          rw [gt_set (by omega)]
          split
          · exact hgam
          · exact i3 i (by omega)
        · simp only
          rw [gt_set (by omega)]
          split
          · exact hdel.1
          · exact i4 i (by omega))
    simp only at sg sd hg hd
    obtain ⟨G, eG, sG, hG⟩ := compute_subspace_spec (S := S) hadd (b := b) (dim := m + 1) (basis := gs) (sub := fresh mem (2 ^ (m + 1))) mem
      sg (by omega) (by simp) hg
    obtain ⟨L, Ls, eL, _, hW⟩ := ih ds sd (by omega) hd
    have ebasis : compute_basis F b (m + 1 + 1) (gt betas (m + 1)) iw betas mem = .ok (gs, ds, G) := by
      unfold compute_basis
      rw [show m + 1 + 1 - 1 = m + 1 by omega, eg, ok_bind]
      simp only
      rw [Arith.exp2_eq (by omega), ok_bind, eG]; rfl
    unfold mkB
    rw [Arith.exp2_eq hb, ok_bind, rd_gt (by omega), ok_bind, ei, ok_bind, rd_gt (by omega), ok_bind, ew, ok_bind, eP, ok_bind,
      Arith.exp2_eq (by omega), ok_bind, if_pos (by omega), ebasis, ok_bind]
    simp only
    rw [eL, ok_bind]
    exact ⟨_, _, rfl, rfl, rfl, rfl, rfl, v0, sP, fun i hi => (hP i hi).1, sG, fun i hi => (hG i hi).1, hW⟩

end Additive
end Quad
