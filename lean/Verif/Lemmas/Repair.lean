import Verif.Spec.Repair
import Verif.Spec.FecFft
import Verif.Lemmas.Pieces

/-!
# Repairing lost fragments
-/

namespace Quad
open Quad.Spec

variable {Γ : Type} {E : Fec Γ} {st : Array Nat → Nat → Nat} {mk : Array Nat → Nat → Option Nat} {A : Array Nat → Prop}

/-- the bytes after the last word do not matter -/
theorem Fec.HSpec.recodes (H : E.HSpec st mk A) {w k n : Nat} (hw : E.base.word_size = w) (hk : E.base.n_data = k) (hn : E.base.n_outputs = n)
    {data frags D : Array (List Nat)} {fprops : Array Properties} {T : Nat} {mem : Nat → Nat} (hd : Gf2nData w k data T)
    (e : CodesTo E n data frags fprops mem) (hs : D.size = k) (hD : ∀ i, i < k → gt D i = (gt data i).take (T * w)) (mem' : Nat → Nat) :
    CodesTo E n D frags fprops mem' := by
  have C := H.codeOf hw hk hn hd e
  have hlen : ∀ i, i < k → (gt D i).length = T * w := fun i hi => by
    rw [hD i hi, List.length_take, Nat.min_eq_left (hd.full i hi)]
  have hD' : Gf2nData w k D T := by
    refine ⟨hs, fun i hi x hx => hd.bytes i hi x ?_, fun i hi => (hlen i hi).ge, ?_⟩
    · rw [hD i hi] at hx
      exact List.mem_of_mem_take hx
    · obtain ⟨i, hi, hl⟩ := hd.last
      exact ⟨i, hi, by rw [hlen i hi]; exact lt_of_le_of_lt (hd.full i hi) hl⟩
  obtain ⟨o, p, e2⟩ := H.codes hw hk hn mem' hD'
  have C2 := H.codeOf hw hk hn hD' e2
  have hrow : ∀ t, t < T → rowAt w k (gt data) t = rowAt w k (gt D) t := by
    intro t ht
    refine gt_ext (by simp [rowAt]) (fun i hi => ?_)
    have hi' : i < k := by simpa [rowAt] using hi
    rw [rowAt_gt hi', rowAt_gt hi', hD i hi']
    unfold wordAt
    have h1 : (t + 1) * w ≤ T * w := Nat.mul_le_mul_right _ ht
    rw [Nat.succ_mul] at h1
    rw [List.drop_take, List.take_take, Nat.min_eq_left (by omega)]
  have C' : CodeOf w k n st mk D T frags fprops := ⟨C.fsize, C.psize,
    fun f hf => by rw [C.frag f hf]; exact flat_congr (fun t ht => by rw [hrow t ht]),
    fun f hf => by rw [C.prop f hf]; exact congrArg Properties.mk (marksOf_congr (fun t ht => by rw [hrow t ht]))⟩
  obtain ⟨q1, q2⟩ := C2.unique C'
  unfold CodesTo
  rw [e2, q1, q2]

theorem exists_map_some {k : Nat} {res : Array (Option (List Nat))} {g : Nat → List Nat} (hs : res.size = k)
    (h : ∀ i, i < k → gt res i = some (g i)) : ∃ D : Array (List Nat), res = D.map some ∧ D.size = k ∧ ∀ i, i < k → gt D i = g i := by
  refine ⟨Array.ofFn (fun i : Fin k => g i), ?_, by simp, fun i hi => gt_ofFn hi⟩
  refine gt_ext (by simp [hs]) (fun i hi => ?_)
  rw [hs] at hi
  rw [h i hi, gt_map (by simpa using hi), gt_ofFn hi]

theorem Fec.HSpec.repairs (H : E.HSpec st mk A) {w k m : Nat} (hw : E.base.word_size = w) (hk : E.base.n_data = k)
    (hn : E.base.n_outputs = k + m) (hrec : ∀ {data : Array (List Nat)} {T : Nat} (mem : Nat → Nat), Gf2nData w k data T → NsRecovers E w k m mem data T) :
    Repairs E w k m := by
  intro data frags fprops T mem hd e datas pars props mem' h1 h2 h3 h4
  obtain ⟨fr, fp, e', _, _, h⟩ := hrec mem hd
  unfold CodesTo at e
  rw [e] at e'
  cases e'
  obtain ⟨res, er, rs, rv⟩ := h datas pars (Array.replicate k (some [])) props mem' h1 h2 (by simp) h3 h4
  obtain ⟨D, rfl, hs, hD⟩ := exists_map_some (g := fun i => (gt data i).take (T * w)) rs (fun i hi => by
    rw [rv i hi, gt_replicate hi]; simp)
  exact ⟨D, er, H.recodes hw hk hn hd e hs hD⟩

end Quad
