import Verif.Model.CApi
import Verif.Lemmas.FntCode
import Verif.Props.Property

/-!
# Metadata at the start of a block
-/

namespace Quad.CApi
open Quad.Props

theorem flatMap4_getD (l : List Nat) {x : Nat} (h : x < 4 * l.length) :
    (l.flatMap (fun v => leBytes 4 v)).getD x 0 = l.getD (x / 4) 0 / 256 ^ (x % 4) % 256 := by
  induction l generalizing x with
  | nil => simp at h
  | cons v l ih =>
    rw [List.flatMap_cons]
    by_cases hx : x < 4
    · rw [List.getD_append _ _ _ _ (by simpa using hx), List.getD_eq_getElem?_getD, leBytes_get hx, Nat.div_eq_of_lt hx, Nat.mod_eq_of_lt hx]
      simp
    · rw [List.getD_append_right _ _ _ _ (by simpa using hx), leBytes_length, ih (by simp at h; omega)]
      rw [show x / 4 = (x - 4) / 4 + 1 by omega, show (x - 4) % 4 = x % 4 by omega, List.getD_cons_succ]

theorem gt_setMeta {b area : Array Nat} (h : 4 * area.size ≤ b.size) (x : Nat) :
    gt (setMeta b area) x = if x < 4 * area.size then gt area (x / 4) / 256 ^ (x % 4) % 256 else gt b x := by
  unfold setMeta
  have hl : (area.toList.flatMap (fun x => leBytes 4 x)).toArray.size = 4 * area.size := by
    simp [List.length_flatMap, Nat.mul_comm]
  rw [gt_append, hl]
  split
  · rename_i hx
    have := flatMap4_getD area.toList (x := x) (by simpa using hx)
    unfold gt
    rw [Array.getD_eq_getD_getElem?, Array.getD_eq_getD_getElem?]
    rw [List.getD_eq_getElem?_getD, List.getD_eq_getElem?_getD] at this
    rw [List.getElem?_toArray, ← Array.getElem?_toList]
    exact this
  · rename_i hx
    by_cases hb : x < b.size
    · rw [gt_extract (by omega) (le_refl _)]; congr 1; omega
    · rw [gt_oob (by simp; omega), gt_oob (by omega)]

theorem size_setMeta {b area : Array Nat} (h : 4 * area.size ≤ b.size) : (setMeta b area).size = b.size := by
  unfold setMeta
  have hl : (area.toList.flatMap (fun x => leBytes 4 x)).toArray.size = 4 * area.size := by
    simp [List.length_flatMap, Nat.mul_comm]
  rw [Array.size_append, hl, Array.size_extract]
  omega

@[simp] theorem size_metaWords (n : Nat) (b : Array Nat) : (metaWords n b).size = n := by simp [metaWords]

theorem gt_metaWords {n j : Nat} {b : Array Nat} (hj : j < n) (h : 4 * n ≤ b.size) :
    gt (metaWords n b) j = gt b (4 * j) + 256 * gt b (4 * j + 1) + 65536 * gt b (4 * j + 2) + 16777216 * gt b (4 * j + 3) := by
  unfold metaWords
  rw [gt_ofFn hj]
  have : (b.extract (4 * j) (4 * j + 4)).toList = [gt b (4 * j), gt b (4 * j + 1), gt b (4 * j + 2), gt b (4 * j + 3)] := by
    apply List.ext_getElem
    · simp; omega
    · intro i h1 h2
      have hi : i < 4 := by simpa using h2
      simp only [Array.getElem_toList, Array.getElem_extract]
      rw [← gt_eq]
      interval_cases i <;> rfl
  simp only [this, leVal]
  ring

theorem metaWords_lt {n : Nat} {b : Array Nat} (h : 4 * n ≤ b.size) (hb : ∀ x, gt b x < 256) (j : Nat) : gt (metaWords n b) j < 2 ^ 32 := by
  by_cases hj : j < n
  · rw [gt_metaWords hj h]
    have := hb (4 * j); have := hb (4 * j + 1); have := hb (4 * j + 2); have := hb (4 * j + 3)
    omega
  · rw [gt_oob (by simpa using hj)]; decide

theorem metaWords_setMeta {b area : Array Nat} (h : 4 * area.size ≤ b.size) (ha : ∀ j, gt area j < 2 ^ 32) :
    metaWords area.size (setMeta b area) = area := by
  apply gt_ext (by simp)
  intro j hj
  rw [size_metaWords] at hj
  rw [gt_metaWords hj (by rw [size_setMeta h]; exact h), gt_setMeta h, gt_setMeta h, gt_setMeta h, gt_setMeta h, if_pos (by omega),
    if_pos (by omega), if_pos (by omega), if_pos (by omega)]
  rw [show 4 * j / 4 = j by omega, show (4 * j + 1) / 4 = j by omega, show (4 * j + 2) / 4 = j by omega, show (4 * j + 3) / 4 = j by omega,
    show 4 * j % 4 = 0 by omega, show (4 * j + 1) % 4 = 1 by omega, show (4 * j + 2) % 4 = 2 by omega, show (4 * j + 3) % 4 = 3 by omega]
  have := ha j
  generalize gt area j = v at *
  norm_num
  omega

/-- the words serialisation writes -/
def metaWord (P : Properties) (k : Nat) : Nat :=
  if k = 0 then bswap32 Properties.FNT1
  else if k = 1 then bswap32 P.props.length
  else if k - 2 < P.props.length then bswap32 ((P.props[k - 2]?.getD (0, 0)).1 % 2 ^ 32)
  else 0

theorem metaWord_lt (P : Properties) (k : Nat) : metaWord P k < 2 ^ 32 := by
  unfold metaWord
  split
  · exact bswap32_lt _
  · split
    · exact bswap32_lt _
    · split
      · exact bswap32_lt _
      · decide

/-- serialisation in a block of bytes, with room to spare -/
theorem serialize_ok {ms A : Nat} {P : Properties} {b : Array Nat} (hms : ms = 4 * A) (hA : A < 2 ^ 32) (hb : ms ≤ b.size)
    (hby : ∀ x, gt b x < 256) (hfit : P.props.length + 2 < A) :
    ∃ b', serialize ms P b = .ok (0, b') ∧ b'.size = b.size ∧ (∀ x, ms ≤ x + 4 → gt b' x = gt b x) ∧
      (∀ x, x + 4 < ms → gt b' x = metaWord P (x / 4) / 256 ^ (x % 4) % 256) ∧ (∀ x, gt b' x < 256) ∧
      (Fnt P → deserialize ms .empty b' = .ok (0, P)) := by
  have hA4 : ms / 4 = A := by omega
  obtain ⟨d, e, s1, p0, p1, p2, p3, p4⟩ := Properties.serialize_spec (P := P) (d := metaWords A b) (by simp; omega) (by simpa using hA)
  rw [size_metaWords] at s1 p3 p4
  have hword : ∀ k, k + 1 < A → gt d k = metaWord P k := by
    intro k hk
    unfold metaWord
    by_cases h0 : k = 0
    · subst h0; rw [if_pos rfl, p0]
    rw [if_neg h0]
    by_cases h1 : k = 1
    · subst h1; rw [if_pos rfl, p1]
    rw [if_neg h1]
    split
    · rename_i h
      rw [← p2 _ h]; congr 1; omega
    · exact p3 k (by omega) hk
  have hlt : ∀ j, gt d j < 2 ^ 32 := by
    intro j
    by_cases hj : j + 1 < A
    · rw [hword j hj]; exact metaWord_lt P j
    · by_cases hj' : j = A - 1
      · rw [hj', p4]; exact metaWords_lt (by omega) hby _
      · rw [gt_oob (by omega)]; decide
  have hd4 : 4 * d.size ≤ b.size := by omega
  have hsame : ∀ x, ms ≤ x + 4 → gt (setMeta b d) x = gt b x := by
    intro x hx
    rw [gt_setMeta hd4]
    split
    · rename_i hx'
      rw [show x / 4 = A - 1 by omega, p4, gt_metaWords (by omega) (by omega)]
      have := hby (4 * (A - 1)); have := hby (4 * (A - 1) + 1); have := hby (4 * (A - 1) + 2); have := hby (4 * (A - 1) + 3)
      have hx4 : x = 4 * (A - 1) + x % 4 := by omega
      have h4 : x % 4 < 4 := Nat.mod_lt _ (by decide)
      generalize x % 4 = r at *
      subst hx4
      interval_cases r
      · norm_num; omega
      · norm_num; omega
      · norm_num; omega
      · norm_num; omega
    · rfl
  have hlow : ∀ x, x + 4 < ms → gt (setMeta b d) x = metaWord P (x / 4) / 256 ^ (x % 4) % 256 := by
    intro x hx
    rw [gt_setMeta hd4, if_pos (by omega), hword _ (by omega)]
  refine ⟨setMeta b d, ?_, size_setMeta hd4, hsame, hlow, ?_, ?_⟩
  · unfold serialize
    rw [if_pos hb, hA4, e, ok_bind]; rfl
  · intro x
    by_cases hx : x + 4 < ms
    · rw [hlow x hx]; exact Nat.mod_lt _ (by decide)
    · rw [hsame x (by omega)]; exact hby x
  · intro hP
    unfold deserialize
    rw [size_setMeta hd4, if_pos hb, hA4, ← s1, metaWords_setMeta hd4 hlt]
    obtain ⟨d', e', _, q⟩ := C33_round_trip_partial (area := metaWords A b) hP (by simp; omega) (by simpa using hA)
    rw [e] at e'
    cases e'
    exact q

/-- it fails without room -/
theorem serialize_fail {ms A : Nat} {P : Properties} {b : Array Nat} (hms : ms = 4 * A) (hb : ms ≤ b.size) (hA : A < P.props.length + 2)
    (h32 : A < 2 ^ 32) : serialize ms P b = .ok (-1, setMeta b (metaWords A b)) := by
  unfold serialize
  rw [if_pos hb, show ms / 4 = A by omega, (C33_failure (by simpa using h32)).1 (by simpa using hA), ok_bind]; rfl

theorem serialize_exact {ms A : Nat} {P : Properties} {b : Array Nat} (hms : ms = 4 * A) (hb : ms ≤ b.size) (hA : A = P.props.length + 2) :
    serialize ms P b = .error .ub := by
  unfold serialize
  rw [if_pos hb, show ms / 4 = A by omega, C33_exact_fit_undefined (by simpa using hA), error_bind]

theorem serialize_inv {ms A : Nat} {P : Properties} {b b' : Array Nat} (hms : ms = 4 * A) (h32 : A < 2 ^ 32)
    (h : serialize ms P b = .ok (0, b')) : ms ≤ b.size ∧ P.props.length + 2 < A := by
  by_cases hb : ms ≤ b.size
  · refine ⟨hb, ?_⟩
    by_contra hc
    by_cases he : A = P.props.length + 2
    · rw [serialize_exact hms hb he] at h; cases h
    · rw [serialize_fail hms hb (by omega) h32] at h
      simp at h
  · unfold serialize at h
    rw [if_neg hb] at h; cases h

/-- a loop over blocks that all have room -/
theorem serLoop_ok {ms : Nat} {blk : Nat → Nat} {pr : Nat → Res Properties} {Q : Nat → Array Nat → Prop} :
    ∀ {n i : Nat} {U : Array (Array Nat)}, (∀ j j', i ≤ j → j < i + n → i ≤ j' → j' < i + n → blk j = blk j' → j = j') →
      (∀ j, i ≤ j → j < i + n → blk j < U.size ∧ ∃ P, pr j = .ok P ∧ ∃ b', serialize ms P (gt U (blk j)) = .ok (0, b') ∧ Q j b') →
      ∃ U', serLoop ms blk pr n i U = .ok (0, U') ∧ U'.size = U.size ∧ (∀ j, i ≤ j → j < i + n → Q j (gt U' (blk j))) ∧
        ∀ x, (∀ j, i ≤ j → j < i + n → x ≠ blk j) → gt U' x = gt U x := by
  intro n
  induction n with
  | zero => intro i U _ _; exact ⟨U, rfl, rfl, fun j h1 h2 => by omega, fun _ _ => rfl⟩
  | succ n ih =>
    intro i U hinj h
    obtain ⟨hb, P, hP, b', hs, hQ⟩ := h i (by omega) (by omega)
    have hne : ∀ j, i + 1 ≤ j → j < i + 1 + n → blk j ≠ blk i := fun j h1 h2 he => by
      have := hinj j i (by omega) (by omega) (by omega) (by omega) he
      omega
    obtain ⟨U', e, z, q, f⟩ := ih (i := i + 1) (U := U.setIfInBounds (blk i) b')
      (fun j j' h1 h2 h3 h4 => hinj j j' (by omega) (by omega) (by omega) (by omega)) (fun j h1 h2 => by
        obtain ⟨k1, k2⟩ := h j (by omega) (by omega)
        refine ⟨by simpa using k1, ?_⟩
        rw [gt_set hb, if_neg (hne j h1 h2)]
        exact k2)
    refine ⟨U', ?_, by simpa using z, ?_, ?_⟩
    · rw [serLoop, hP, ok_bind, rd_gt hb, ok_bind, hs, ok_bind]
      simp only
      rw [wr_ok hb, ok_bind, if_neg (by decide), e]
    · intro j h1 h2
      by_cases hj : j = i
      · subst hj
        rw [f _ (fun j' h3 h4 => (hne j' h3 h4).symm), gt_set hb, if_pos rfl]; exact hQ
      · exact q j (by omega) (by omega)
    · intro x hx
      rw [f x (fun j h1 h2 => hx j (by omega) (by omega)), gt_set hb, if_neg (hx i (by omega) (by omega))]

/-- a loop that returned 0 -/
theorem serLoop_inv {ms : Nat} {blk : Nat → Nat} {pr : Nat → Res Properties} :
    ∀ {n i : Nat} {U U' : Array (Array Nat)}, (∀ j j', i ≤ j → j < i + n → i ≤ j' → j' < i + n → blk j = blk j' → j = j') →
      serLoop ms blk pr n i U = .ok (0, U') →
      U'.size = U.size ∧ (∀ j, i ≤ j → j < i + n → blk j < U.size ∧ ∃ P, pr j = .ok P ∧ ∃ ret, ret ≠ -1 ∧
        serialize ms P (gt U (blk j)) = .ok (ret, gt U' (blk j))) ∧
        ∀ x, (∀ j, i ≤ j → j < i + n → x ≠ blk j) → gt U' x = gt U x := by
  intro n
  induction n with
  | zero => intro i U U' _ h; cases h; exact ⟨rfl, fun j h1 h2 => by omega, fun _ _ => rfl⟩
  | succ n ih =>
    intro i U U' hinj h
    rw [serLoop] at h
    obtain ⟨P, hP, h⟩ := bind_ok h
    obtain ⟨b, hb, h⟩ := bind_ok h
    obtain ⟨⟨ret, b'⟩, hs, h⟩ := bind_ok h
    simp only at h
    obtain ⟨U1, hw, h⟩ := bind_ok h
    by_cases hret : ret = -1
    · rw [if_pos hret] at h; cases h
    rw [if_neg hret] at h
    have hlt : blk i < U.size := by
      by_contra hc
      simp [rd, hc] at hb
    rw [rd_gt hlt] at hb
    cases hb
    rw [wr_ok hlt] at hw
    cases hw
    have hne : ∀ j, i + 1 ≤ j → j < i + 1 + n → blk j ≠ blk i := fun j h1 h2 he => by
      have := hinj j i (by omega) (by omega) (by omega) (by omega) he
      omega
    obtain ⟨z, q, f⟩ := ih (fun j j' h1 h2 h3 h4 => hinj j j' (by omega) (by omega) (by omega) (by omega)) h
    refine ⟨by simpa using z, ?_, ?_⟩
    · intro j h1 h2
      by_cases hj : j = i
      · subst hj
        refine ⟨hlt, P, hP, ret, hret, ?_⟩
        rw [f _ (fun j' h3 h4 => (hne j' h3 h4).symm), gt_set hlt, if_pos rfl]; exact hs
      · obtain ⟨k1, k2⟩ := q j (by omega) (by omega)
        rw [gt_set hlt, if_neg (hne j (by omega) (by omega))] at k2
        exact ⟨by simpa using k1, k2⟩
    · intro x hx
      rw [f x (fun j h1 h2 => hx j (by omega) (by omega)), gt_set hlt, if_neg (hx i (by omega) (by omega))]

/-- reading the metadata of the fragments that are not missing -/
theorem deserLoop_ok {ms first : Nat} {missing : Array Bool} {U : Array (Array Nat)} {P : Nat → Properties} :
    ∀ {n i : Nat} {props : Array Properties}, first + i + n ≤ missing.size → i + n ≤ props.size →
      (∀ j, i ≤ j → j < i + n → gt props j = .empty) →
      (∀ j, i ≤ j → j < i + n → gt missing (first + j) = false → first + j < U.size ∧ deserialize ms .empty (gt U (first + j)) = .ok (0, P j)) →
      ∃ props', deserLoop ms first missing U n i props = .ok (some props') ∧ props'.size = props.size ∧
        (∀ j, i ≤ j → j < i + n → gt missing (first + j) = false → gt props' j = P j) ∧ ∀ j, j < i → gt props' j = gt props j := by
  intro n
  induction n with
  | zero => intro i props _ _ _ _; exact ⟨props, rfl, rfl, fun j h1 h2 => by omega, fun _ _ => rfl⟩
  | succ n ih =>
    intro i props hm hp he h
    rw [deserLoop, rd_gt (by omega), ok_bind]
    cases hmi : gt missing (first + i) with
    | true =>
      simp only [if_true]
      obtain ⟨p', e, z, q, r⟩ := ih (i := i + 1) (props := props) (by omega) (by omega) (fun j h1 h2 => he j (by omega) (by omega))
        (fun j h1 h2 => h j (by omega) (by omega))
      refine ⟨p', e, z, fun j h1 h2 h3 => ?_, fun j hj => r j (by omega)⟩
      by_cases hj : j = i
      · subst hj; rw [hmi] at h3; cases h3
      · exact q j (by omega) (by omega) h3
    | false =>
      obtain ⟨k1, k2⟩ := h i (by omega) (by omega) hmi
      simp only [Bool.false_eq_true, if_false]
      rw [rd_gt (by omega), ok_bind, rd_gt k1, ok_bind, he i (by omega) (by omega), k2, ok_bind]
      simp only
      rw [wr_ok (by omega), ok_bind, if_neg (by decide)]
      obtain ⟨p', e, z, q, r⟩ := ih (i := i + 1) (props := props.setIfInBounds i (P i)) (by omega) (by simp; omega)
        (fun j h1 h2 => by rw [gt_set (by omega), if_neg (by omega)]; exact he j (by omega) (by omega))
        (fun j h1 h2 => h j (by omega) (by omega))
      refine ⟨p', e, by simpa using z, fun j h1 h2 h3 => ?_, fun j hj => ?_⟩
      · by_cases hj : j = i
        · subst hj; rw [r j (by omega), gt_set (by omega), if_pos rfl]
        · exact q j (by omega) (by omega) h3
      · rw [r j (by omega), gt_set (by omega), if_neg (by omega)]

end Quad.CApi
