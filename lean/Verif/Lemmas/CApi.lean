import Verif.Lemmas.CApiMem
import Verif.Spec.CApi

/-!
# The C functions
-/

namespace Quad.CApi
open Quad.Spec Quad.Props

theorem block_gt {bs : Nat} {b : Array Nat} (h : Block bs b) (x : Nat) : gt b x < 256 := by
  by_cases hx : x < b.size
  · rw [gt_eq hx]; exact h.2 _ (by simp)
  · rw [gt_oob (by omega)]; decide

theorem block_of {bs : Nat} {b : Array Nat} (h1 : b.size = metadata_size bs + bs) (h2 : ∀ x, gt b x < 256) : Block bs b := by
  refine ⟨h1, fun x hx => ?_⟩
  obtain ⟨i, hi, rfl⟩ := List.mem_iff_getElem.mp hx
  have hi' : i < b.size := by simpa using hi
  have := h2 i
  rw [gt_eq hi'] at this
  simpa using this

theorem payload_length {w bs : Nat} {b : Array Nat} (h : b.size = metadata_size bs + bs) : (payload w bs b).length = bs / w * w := by
  unfold payload
  have := Nat.div_mul_le_self bs w
  simp
  omega

theorem payload_getD {w bs y : Nat} {b : Array Nat} (hy : y < bs / w * w) : (payload w bs b).getD y 0 = gt b (metadata_size bs + y) := by
  unfold payload
  rw [← getD_toList, List.getD_eq_getElem?_getD, List.getElem?_take_of_lt hy, List.getElem?_drop, ← List.getD_eq_getElem?_getD]

theorem payload_ext {w bs : Nat} {b : Array Nat} {s : List Nat} (h : b.size = metadata_size bs + bs) (hs : s.length = bs / w * w)
    (hb : ∀ y, y < bs / w * w → gt b (metadata_size bs + y) = s.getD y 0) : payload w bs b = s := by
  apply List.ext_getElem
  · rw [payload_length h, hs]
  · intro y h1 h2
    have h3 := payload_getD (b := b) (bs := bs) (w := w) (y := y) (by omega)
    rw [List.getD_eq_getElem _ _ h1, hb y (by omega), List.getD_eq_getElem _ _ h2] at h3
    exact h3

variable {c : FntCode} {pkt : Nat} {R : RsFntObj} {C : CtxB} {H : Heap} {frags : Array (List Nat)} {fprops : Array Properties} {bs : Nat}

theorem dataOf_gt {U : Array (Array Nat)} {i : Nat} (hi : i < c.k) : gt (c.dataOf bs U) i = payload c.w bs (gt U i) := gt_ofFn hi

theorem dataOf_data {U : Array (Array Nat)} (h : ∀ i, i < c.k → Block bs (gt U i)) : c.Data (c.dataOf bs U) (bs / c.w) := by
  refine ⟨by simp [FntCode.dataOf], fun i hi x hx => ?_, fun i hi => ?_⟩
  · rw [dataOf_gt hi] at hx
    exact (h i hi).2 x (List.mem_of_mem_drop (List.mem_of_mem_take hx))
  · rw [dataOf_gt hi, payload_length (h i hi).1]

theorem nOut_first : c.first + c.nOut = c.k + c.m := by
  unfold FntCode.first FntCode.nOut; split <;> omega

theorem firstOut_eq (h : Obj c R) : firstOut R = c.first := by
  unfold firstOut FntCode.first; rw [h.sys, h.k]

theorem size_ptrs (ms first n : Nat) : (ptrs ms first n).size = n := by simp [ptrs]

theorem gt_ptrs {ms first n i : Nat} (h : i < n) : gt (ptrs ms first n) i = some (first + i, ms) := gt_ofFn h

theorem distinct_ptrs (ms first n : Nat) : Distinct (ptrs ms first n) n := by
  intro f f' b base base' h1 h2 h3 h4
  rw [gt_ptrs h1] at h3
  rw [gt_ptrs h2] at h4
  cases h3
  simp at h4
  omega

theorem compatible_ptrs (ms first first' n n' : Nat) : Compatible (ptrs ms first n) (ptrs ms first' n') n' := by
  intro j f b base base' h1 h2 h3 h4
  rw [size_ptrs] at h1
  rw [gt_ptrs h1] at h3
  rw [gt_ptrs h2] at h4
  simp at h3 h4
  omega

/-- bytes and properties of an encoding -/
theorem encoded_facts {data : Array (List Nat)} {T : Nat} (hc : c.Ok) (hd : c.Data data T) (he : c.Encoded data frags fprops) :
    frags.size = c.nOut ∧ fprops.size = c.nOut ∧ (∀ f, f < c.nOut → (gt frags f).length = T * c.w) ∧
    (∀ f, f < c.nOut → ∀ y, (gt frags f).getD y 0 < 256) ∧ (T < 2 ^ 32 → ∀ f, f < c.nOut → Fnt (gt fprops f)) := by
  obtain ⟨p, n, _, g, r⟩ := FntCode.exists_root hc
  have hI := he.isCode hd r
  refine ⟨hI.fsize, hI.psize, fun f hf => by rw [hI.frag f hf, flat_length], fun f hf y => ?_, fun hT f hf => ?_⟩
  · by_cases hy : y < (gt frags f).length
    · rw [List.getD_eq_getElem _ _ hy]
      have hmem : ∀ x, x ∈ gt frags f → x < 256 := by
        intro x hx
        rw [hI.frag f hf] at hx
        unfold flat at hx
        obtain ⟨t, _, h⟩ := List.mem_flatMap.mp hx
        exact leBytes_lt _ _ _ h
      exact hmem _ (List.getElem_mem hy)
    · rw [List.getD_eq_default _ _ (by omega)]; decide
  · intro it hit
    rw [hI.prop f hf] at hit
    obtain ⟨h1, h2⟩ := mem_marksOf.mp hit
    refine ⟨by omega, ?_⟩
    unfold FntCode.mark at h2
    split at h2
    · exact (Option.some.inj h2).symm
    · cases h2

/-- the properties that go to the metadata of block `b` -/
def blockProps (c : FntCode) (fprops : Array Properties) (b : Nat) : Properties :=
  if b < c.first then .empty else gt fprops (b - c.first)

theorem blockProps_fnt {b : Nat} (h : ∀ f, f < c.nOut → Fnt (gt fprops f)) (hb : b < c.k + c.m) : Fnt (blockProps c fprops b) := by
  unfold blockProps
  split
  · intro it hit; cases hit
  · exact h _ (by have := @nOut_first c; omega)

theorem serLoop_congr {ms : Nat} {blk : Nat → Nat} {pr pr' : Nat → Res Properties} :
    ∀ {n i : Nat} {U : Array (Array Nat)}, (∀ j, i ≤ j → j < i + n → pr j = pr' j) → serLoop ms blk pr n i U = serLoop ms blk pr' n i U := by
  intro n
  induction n with
  | zero => intro i U _; rfl
  | succ n ih =>
    intro i U h
    rw [serLoop, serLoop, h i (by omega) (by omega)]
    congr 1
    funext P
    congr 1
    funext b
    congr 1
    funext r
    obtain ⟨ret, b'⟩ := r
    simp only
    congr 1
    funext U1
    split
    · rfl
    · exact ih (fun j h1 h2 => h j (by omega) (by omega))

/-- copying `wanted_idxs` -/
theorem copyWanted {n : Nat} {wanted : Array Bool} (h : n ≤ wanted.size) :
    ∃ v, forN n (Array.replicate n false) (fun i v => do
      let x ← rd wanted i
      wr v i x) = .ok v ∧ v.size = n ∧ ∀ i, i < n → gt v i = gt wanted i := by
  obtain ⟨v, e, h1, h2⟩ := forN_inv (n := n) (s := Array.replicate n false) (f := fun i v => do
      let x ← rd wanted i
      wr v i x) (fun t (v : Array Bool) => v.size = n ∧ ∀ i, i < t → gt v i = gt wanted i) ⟨by simp, fun i hi => by omega⟩ (by
    rintro t v ht ⟨h1, h2⟩
    refine ⟨v.setIfInBounds t (gt wanted t), ?_, by simpa using h1, fun i hi => ?_⟩
    · rw [rd_gt (by omega), ok_bind, wr_ok (by omega)]
    · rw [gt_set (by omega)]
      split
      · rename_i h; rw [h]
      · exact h2 i (by omega))
  exact ⟨v, e, h1, h2⟩

/-- what is in memory when the metadata is about to be written -/
structure Written (c : FntCode) (bs : Nat) (U : Array (Array Nat)) (wanted : Array Bool) (frags : Array (List Nat)) (U1 : Array (Array Nat)) : Prop where
  mem : c.Mem bs U1
  frag : ∀ f, f < c.nOut → gt wanted f = true → payload c.w bs (gt U1 (c.first + f)) = gt frags f
  data : c.sys = true → ∀ i, i < c.k → gt U1 i = gt U i
  keep : ∀ b x, x < metadata_size bs ∨ metadata_size bs + bs / c.w * c.w ≤ x → gt (gt U1 b) x = gt (gt U b) x

theorem encode_eq (hc : c.Ok) (hb : c.b = 32) (hpkt : 0 < pkt) (hr : c.Reachable pkt R C H) {U : Array (Array Nat)} (hU : c.Mem bs U)
    {wanted : Array Bool} (hw : c.nOut ≤ wanted.size) (he : c.Encoded (c.dataOf bs U) frags fprops) (junk : Nat → Nat → Nat) :
    ∃ U1 C' H', c.Reachable pkt R C' H' ∧ Written c bs U wanted frags U1 ∧
      encode R C U wanted bs junk H = (do
        let (ret, U) ← serLoop (metadata_size bs) (fun i => i) (fun i => .ok (blockProps c fprops i)) c.k 0 U1
        if ret = -1 then pure (-1, U, C', H')
        else do
          let (ret, U) ← serLoop (metadata_size bs) (fun i => c.k + i) (fun i => .ok (blockProps c fprops (c.k + i))) c.m 0 U
          pure (ret, U, C', H')) := by
  have hd := dataOf_data (c := c) (bs := bs) (fun i hi => hU.block i (by omega))
  have hO := obj_of hc hr
  obtain ⟨v, ev, v1, v2⟩ := copyWanted hw
  obtain ⟨z1, z2, z3, z4, z5⟩ := encoded_facts hc hd he
  have hTb : bs / c.w * c.w ≤ bs := Nat.div_mul_le_self _ _
  have hbl := hU.block
  have hfo := @nOut_first c
  have hus := hU.size
  obtain ⟨U1, C', H', e, hr', s1, s2, s3, s4⟩ := encodeU_mem hc hd he rfl hpkt hr (U := U) (dp := ptrs (metadata_size bs) 0 c.k)
    (tp := ptrs (metadata_size bs) c.first c.nOut) (props := Array.replicate c.nOut .empty) (wanted := v) junk (size_ptrs _ _ _)
    (fun i hi => by
      refine ⟨(0 + i, metadata_size bs), gt_ptrs hi, by simp only; omega, ?_, ?_, ?_⟩
      · rw [hd.len i hi]; simp only [Nat.zero_add]; rw [(hbl i (by omega)).1]; omega
      · simp only [Nat.zero_add]; exact block_gt (hbl i (by omega))
      · intro y hy
        rw [hd.len i hi] at hy
        simp only [Nat.zero_add]
        rw [dataOf_gt hi, payload_getD hy])
    (size_ptrs _ _ _) (fun f hf _ => by
      refine ⟨(c.first + f, metadata_size bs), gt_ptrs hf, by simp only; omega, ?_⟩
      simp only; rw [(hbl _ (by omega)).1]; omega)
    (distinct_ptrs _ _ _) (compatible_ptrs _ _ _ _ _) (by simp) (by omega)
  have hmem : ∀ b x, gt (gt U1 b) x = gt (gt U b) x ∨ ∃ f y, f < c.nOut ∧ gt (gt U1 b) x = (gt frags f).getD y 0 := by
    intro b x
    by_cases hh : ∃ f, f < c.nOut ∧ gt v f = true ∧ b = c.first + f ∧ metadata_size bs ≤ x ∧ x < metadata_size bs + bs / c.w * c.w
    · obtain ⟨f, h1, h2, rfl, h4, h5⟩ := hh
      refine .inr ⟨f, x - metadata_size bs, h1, ?_⟩
      have := s3 f _ (x - metadata_size bs) h1 h2 (gt_ptrs h1) (by omega)
      simp only at this
      rw [show metadata_size bs + (x - metadata_size bs) = x by omega] at this
      exact this
    · refine .inl (s4 b x (fun f base h1 h2 h3 => ?_))
      rw [gt_ptrs h1] at h3
      simp at h3
      by_contra hcon
      exact hh ⟨f, h1, h2, by omega, by omega, by omega⟩
  have hblk : ∀ b, b < c.k + c.m → Block bs (gt U1 b) := fun b hb => block_of (by rw [s2]; exact (hbl b hb).1) (fun x => by
    rcases hmem b x with h | ⟨f, y, hf, h⟩
    · rw [h]; exact block_gt (hbl b hb) x
    · rw [h]; exact z4 f hf y)
  have hW : Written c bs U wanted frags U1 := by
    refine ⟨⟨by rw [s1]; exact hus, hblk⟩, fun f hf hwf => ?_, fun hs i hi => ?_, fun b x hx => ?_⟩
    · refine payload_ext (hblk _ (by omega)).1 (z3 f hf) (fun y hy => ?_)
      have := s3 f _ y hf (by rw [v2 f hf]; exact hwf) (gt_ptrs hf) hy
      exact this
    · refine gt_ext (s2 i) (fun x _ => s4 i x (fun f base h1 h2 h3 => ?_))
      rw [gt_ptrs h1] at h3
      simp [FntCode.first, hs] at h3
      omega
    · refine s4 b x (fun f base h1 h2 h3 => ?_)
      rw [gt_ptrs h1] at h3
      simp at h3
      omega
  refine ⟨U1, C', H', hr', hW, ?_⟩
  unfold encode
  simp only
  rw [hO.out, hO.k, hO.m, firstOut_eq hO, hO.sys, ev, ok_bind]
  rw [hb] at e
  rw [e, ok_bind]
  simp only
  cases hs : c.sys with
  | true =>
    simp only [if_true]
    have hfst : c.first = c.k := by simp [FntCode.first, hs]
    have hno : c.nOut = c.m := by simp [FntCode.nOut, hs]
    congr 1
    · refine serLoop_congr (fun j h1 h2 => ?_)
      unfold blockProps
      rw [hfst, if_pos (by omega)]
    · funext r
      obtain ⟨ret, U2⟩ := r
      simp only
      split
      · rfl
      · congr 1
        refine serLoop_congr (fun j h1 h2 => ?_)
        unfold blockProps
        rw [hfst, if_neg (by omega), rd_gt (by omega)]
        congr 2; omega
  | false =>
    simp only [Bool.false_eq_true, if_false]
    have hfst : c.first = 0 := by simp [FntCode.first, hs]
    have hno : c.nOut = c.k + c.m := by simp [FntCode.nOut, hs]
    congr 1
    · refine serLoop_congr (fun j h1 h2 => ?_)
      unfold blockProps
      rw [hfst, if_neg (by omega), rd_gt (by omega)]
      rfl
    · funext r
      obtain ⟨ret, U2⟩ := r
      simp only
      split
      · rfl
      · congr 1
        refine serLoop_congr (fun j h1 h2 => ?_)
        unfold blockProps
        rw [hfst, if_neg (by omega), rd_gt (by omega)]
        rfl

/-- words of metadata -/
def metaLen (bs : Nat) : Nat := bs / 65536 + 16

theorem metadata_size_eq (bs : Nat) : metadata_size bs = 4 * metaLen bs := by unfold metadata_size metaLen; omega

theorem metaLen_lt {bs : Nat} (h : bs < 2 ^ 44) : metaLen bs < 2 ^ 32 := by unfold metaLen; omega

/-- all properties leave a word free -/
def Fits (c : FntCode) (bs : Nat) (fprops : Array Properties) : Prop :=
  ∀ f, f < c.nOut → (gt fprops f).props.length + 2 < metaLen bs

theorem Fits.block (h : Fits c bs fprops) {b : Nat} (hb : b < c.k + c.m) : (blockProps c fprops b).props.length + 2 < metaLen bs := by
  unfold blockProps
  split
  · show 0 + 2 < _; unfold metaLen; omega
  · exact h _ (by have := @nOut_first c; omega)

/-- metadata written to a block -/
structure Labelled (bs : Nat) (P : Properties) (b b' : Array Nat) : Prop where
  size : b'.size = b.size
  keep : ∀ x, metadata_size bs ≤ x + 4 → gt b' x = gt b x
  words : ∀ x, x + 4 < metadata_size bs → gt b' x = metaWord P (x / 4) / 256 ^ (x % 4) % 256
  bytes : ∀ x, gt b' x < 256
  read : Fnt P → deserialize (metadata_size bs) .empty b' = .ok (0, P)

theorem Labelled.payload {w : Nat} {P : Properties} {b b' : Array Nat} (h : Labelled bs P b b') (hb : b.size = metadata_size bs + bs) :
    payload w bs b' = payload w bs b := by
  refine payload_ext (by rw [h.size, hb]) (payload_length hb) (fun y hy => ?_)
  rw [payload_getD hy]
  exact h.keep _ (by omega)

theorem serialize_labelled (h44 : bs < 2 ^ 44) {P : Properties} {b : Array Nat} (hb : Block bs b) (h : P.props.length + 2 < metaLen bs) :
    ∃ b', serialize (metadata_size bs) P b = .ok (0, b') ∧ Labelled bs P b b' := by
  obtain ⟨b', e, s1, s2, s3, s4, s5⟩ := serialize_ok (metadata_size_eq bs) (metaLen_lt h44) (by have := hb.1; omega) (block_gt hb) h
  exact ⟨b', e, s1, s2, s3, s4, s5⟩

theorem serLoop_labelled (h44 : bs < 2 ^ 44) {n first : Nat} {P : Nat → Properties} {U : Array (Array Nat)} (hU : first + n ≤ U.size)
    (hB : ∀ i, i < n → Block bs (gt U (first + i))) (hP : ∀ i, i < n → (P i).props.length + 2 < metaLen bs) :
    ∃ U', serLoop (metadata_size bs) (fun i => first + i) (fun i => .ok (P i)) n 0 U = .ok (0, U') ∧ U'.size = U.size ∧
      (∀ i, i < n → Labelled bs (P i) (gt U (first + i)) (gt U' (first + i))) ∧
      ∀ x, x < first ∨ first + n ≤ x → gt U' x = gt U x := by
  obtain ⟨U', e, s1, s2, s3⟩ := serLoop_ok (ms := metadata_size bs) (blk := fun i => first + i) (pr := fun i => .ok (P i)) (n := n) (i := 0) (U := U)
    (Q := fun j b' => Labelled bs (P j) (gt U (first + j)) b') (fun j j' _ _ _ _ h => by omega) (fun j _ hj => by
      obtain ⟨b', e, h⟩ := serialize_labelled h44 (hB j (by omega)) (hP j (by omega))
      exact ⟨by omega, _, rfl, b', e, h⟩)
  exact ⟨U', e, s1, fun i hi => s2 i (by omega) (by omega), fun x hx => s3 x (fun j _ hj => by omega)⟩

/-- the loop up to a block without room -/
theorem serLoop_stop {ms : Nat} {blk : Nat → Nat} {pr : Nat → Res Properties} {j0 : Nat} {P0 : Properties} :
    ∀ {n i : Nat} {U : Array (Array Nat)}, (∀ j j', i ≤ j → j < i + n → i ≤ j' → j' < i + n → blk j = blk j' → j = j') →
      i ≤ j0 → j0 < i + n → pr j0 = .ok P0 → blk j0 < U.size →
      (∀ j, i ≤ j → j < j0 → blk j < U.size ∧ ∃ P, pr j = .ok P ∧ ∃ b', serialize ms P (gt U (blk j)) = .ok (0, b')) →
      (∀ b', serialize ms P0 (gt U (blk j0)) = .ok (-1, b') → ∃ U', serLoop ms blk pr n i U = .ok (-1, U') ∧ U'.size = U.size) ∧
      (∀ e, serialize ms P0 (gt U (blk j0)) = .error e → serLoop ms blk pr n i U = .error e) := by
  intro n
  induction n with
  | zero => intro i U _ h1 h2; omega
  | succ n ih =>
    intro i U hinj h1 h2 hP hsz hok
    by_cases hij : i = j0
    · subst hij
      refine ⟨fun b' hb' => ⟨U.setIfInBounds (blk i) b', ?_, by simp⟩, fun e he => ?_⟩
      · rw [serLoop, hP, ok_bind, rd_gt hsz, ok_bind, hb', ok_bind]
        simp only
        rw [wr_ok hsz, ok_bind, if_pos trivial]; rfl
      · rw [serLoop, hP, ok_bind, rd_gt hsz, ok_bind, he, error_bind]
    · obtain ⟨g1, P, g2, b', g3⟩ := hok i (le_refl _) (by omega)
      have hne : ∀ j, i + 1 ≤ j → j < i + 1 + n → blk j ≠ blk i := fun j a b he => by
        have := hinj j i (by omega) (by omega) (by omega) (by omega) he
        omega
      have hstep : serLoop ms blk pr (n + 1) i U = serLoop ms blk pr n (i + 1) (U.setIfInBounds (blk i) b') := by
        rw [serLoop, g2, ok_bind, rd_gt g1, ok_bind, g3, ok_bind]
        simp only
        rw [wr_ok g1, ok_bind, if_neg (by decide)]
      have hget : ∀ j, i + 1 ≤ j → j < i + 1 + n → gt (U.setIfInBounds (blk i) b') (blk j) = gt U (blk j) := fun j a b => by
        rw [gt_set g1, if_neg (hne j a b)]
      obtain ⟨r1, r2⟩ := ih (i := i + 1) (U := U.setIfInBounds (blk i) b') (fun j j' a b c d h => hinj j j' (by omega) (by omega) (by omega) (by omega) h)
        (by omega) (by omega) hP (by simpa using hsz) (fun j a b => by
          obtain ⟨q1, q2⟩ := hok j (by omega) b
          refine ⟨by simpa using q1, ?_⟩
          rw [hget j a (by omega)]; exact q2)
      rw [hget j0 (by omega) (by omega)] at r1 r2
      rw [hstep]
      exact ⟨fun b'' h => by
        obtain ⟨U', h1, h2⟩ := r1 b'' h
        exact ⟨U', h1, by simpa using h2⟩, r2⟩

/-- the result of encoding when all the metadata fits -/
structure Coded (c : FntCode) (bs : Nat) (U : Array (Array Nat)) (wanted : Array Bool) (frags : Array (List Nat)) (fprops : Array Properties)
    (U' : Array (Array Nat)) : Prop where
  size : U'.size = c.k + c.m
  ex : ∃ U1, Written c bs U wanted frags U1 ∧ ∀ b, b < c.k + c.m → Labelled bs (blockProps c fprops b) (gt U1 b) (gt U' b)

theorem Coded.block {U : Array (Array Nat)} {wanted : Array Bool} {U' : Array (Array Nat)} (h : Coded c bs U wanted frags fprops U') {b : Nat}
    (hb : b < c.k + c.m) : Block bs (gt U' b) := by
  obtain ⟨U1, h1, h2⟩ := h.ex
  exact block_of (by rw [(h2 b hb).size]; exact (h1.mem.block b hb).1) (h2 b hb).bytes

theorem Coded.frag {U : Array (Array Nat)} {wanted : Array Bool} {U' : Array (Array Nat)} (h : Coded c bs U wanted frags fprops U') {f : Nat}
    (hf : f < c.nOut) (hw : gt wanted f = true) : payload c.w bs (gt U' (c.first + f)) = gt frags f := by
  obtain ⟨U1, h1, h2⟩ := h.ex
  have := @nOut_first c
  rw [(h2 _ (by omega)).payload (h1.mem.block _ (by omega)).1]
  exact h1.frag f hf hw

theorem Coded.data {U : Array (Array Nat)} {wanted : Array Bool} {U' : Array (Array Nat)} (h : Coded c bs U wanted frags fprops U')
    (hs : c.sys = true) {i : Nat} (hi : i < c.k) : payload c.w bs (gt U' i) = payload c.w bs (gt U i) := by
  obtain ⟨U1, h1, h2⟩ := h.ex
  rw [(h2 i (by omega)).payload (h1.mem.block i (by omega)).1, h1.data hs i hi]

theorem encode_fits (hc : c.Ok) (hb : c.b = 32) (hpkt : 0 < pkt) (hr : c.Reachable pkt R C H) {U : Array (Array Nat)} (hU : c.Mem bs U)
    {wanted : Array Bool} (hw : c.nOut ≤ wanted.size) (he : c.Encoded (c.dataOf bs U) frags fprops) (h44 : bs < 2 ^ 44) (junk : Nat → Nat → Nat)
    (hf : Fits c bs fprops) :
    ∃ U' C' H', encode R C U wanted bs junk H = .ok (0, U', C', H') ∧ Coded c bs U wanted frags fprops U' ∧ c.Reachable pkt R C' H' := by
  obtain ⟨U1, C', H', hr', hW, e⟩ := encode_eq hc hb hpkt hr hU hw he junk
  have hsz := hW.mem.size
  obtain ⟨U2, e2, s1, s2, s3⟩ := serLoop_labelled h44 (n := c.k) (first := 0) (U := U1) (P := fun i => blockProps c fprops i) (by omega)
    (fun i hi => hW.mem.block _ (by omega)) (fun i hi => hf.block (by omega))
  simp only [Nat.zero_add] at e2 s2
  obtain ⟨U3, e3, t1, t2, t3⟩ := serLoop_labelled h44 (n := c.m) (first := c.k) (U := U2) (P := fun i => blockProps c fprops (c.k + i)) (by omega)
    (fun i hi => by rw [s3 _ (.inr (by omega))]; exact hW.mem.block _ (by omega)) (fun i hi => hf.block (by omega))
  refine ⟨U3, C', H', ?_, ⟨by omega, U1, hW, fun b hb => ?_⟩, hr'⟩
  · rw [e, e2, ok_bind]
    simp only
    rw [if_neg (by decide), e3, ok_bind]; rfl
  · by_cases hbk : b < c.k
    · rw [t3 b (.inl hbk)]; exact s2 b hbk
    · have := t2 (b - c.k) (by omega)
      rw [show c.k + (b - c.k) = b by omega, s3 b (.inr (by omega))] at this
      exact this

/-- the metadata of some output fragment does not fit -/
theorem encode_unfit (hc : c.Ok) (hb : c.b = 32) (hpkt : 0 < pkt) (hr : c.Reachable pkt R C H) {U : Array (Array Nat)} (hU : c.Mem bs U)
    {wanted : Array Bool} (hw : c.nOut ≤ wanted.size) (he : c.Encoded (c.dataOf bs U) frags fprops) (h44 : bs < 2 ^ 44) (junk : Nat → Nat → Nat)
    {f : Nat} (hfn : f < c.nOut) (hfirst : ∀ j, j < f → (gt fprops j).props.length + 2 < metaLen bs) (hnot : metaLen bs ≤ (gt fprops f).props.length + 2) :
    (metaLen bs < (gt fprops f).props.length + 2 → ∃ U' C' H', encode R C U wanted bs junk H = .ok (-1, U', C', H') ∧ c.Reachable pkt R C' H') ∧
    (metaLen bs = (gt fprops f).props.length + 2 → encode R C U wanted bs junk H = .error .ub) := by
  obtain ⟨U1, C', H', hr', hW, e⟩ := encode_eq hc hb hpkt hr hU hw he junk
  have hsz := hW.mem.size
  have hno := @nOut_first c
  have hbp : blockProps c fprops (c.first + f) = gt fprops f := by
    unfold blockProps; rw [if_neg (by omega)]; congr 1; omega
  have hlow : ∀ b, b < c.first + f → (blockProps c fprops b).props.length + 2 < metaLen bs := by
    intro b hb
    unfold blockProps
    split
    · show 0 + 2 < _; unfold metaLen; omega
    · exact hfirst _ (by omega)
  have hser : ∀ b : Array Nat, Block bs b →
      (metaLen bs < (gt fprops f).props.length + 2 → ∃ b', serialize (metadata_size bs) (gt fprops f) b = .ok (-1, b')) ∧
      (metaLen bs = (gt fprops f).props.length + 2 → serialize (metadata_size bs) (gt fprops f) b = .error .ub) := fun b hb =>
    ⟨fun h => ⟨_, serialize_fail (metadata_size_eq bs) (by have := hb.1; omega) h (metaLen_lt h44)⟩,
      fun h => serialize_exact (metadata_size_eq bs) (by have := hb.1; omega) h⟩
  by_cases hk : c.first + f < c.k
  · obtain ⟨r1, r2⟩ := serLoop_stop (ms := metadata_size bs) (blk := fun i => i) (pr := fun i => .ok (blockProps c fprops i)) (n := c.k) (i := 0)
      (j0 := c.first + f) (P0 := gt fprops f) (U := U1) (fun _ _ _ _ _ _ h => h) (by omega) (by omega) (by rw [hbp]) (by omega) (fun j _ hj => by
        obtain ⟨b', e, _⟩ := serialize_labelled h44 (hW.mem.block j (by omega)) (hlow j hj)
        exact ⟨by omega, _, rfl, b', e⟩)
    obtain ⟨q1, q2⟩ := hser _ (hW.mem.block (c.first + f) (by omega))
    refine ⟨fun h => ?_, fun h => ?_⟩
    · obtain ⟨b', hb'⟩ := q1 h
      obtain ⟨U', hU', _⟩ := r1 b' hb'
      exact ⟨U', C', H', by rw [e, hU', ok_bind]; rfl, hr'⟩
    · rw [e, r2 _ (q2 h), error_bind]
  · obtain ⟨U2, e2, s1, s2, s3⟩ := serLoop_labelled h44 (n := c.k) (first := 0) (U := U1) (P := fun i => blockProps c fprops i) (by omega)
      (fun i hi => hW.mem.block _ (by omega)) (fun i hi => hlow i (by omega))
    simp only [Nat.zero_add] at e2 s2 s3
    have hB2 : ∀ j, c.k ≤ j → j < c.k + c.m → Block bs (gt U2 j) := fun j h1 h2 => by rw [s3 j (.inr h1)]; exact hW.mem.block j h2
    obtain ⟨r1, r2⟩ := serLoop_stop (ms := metadata_size bs) (blk := fun i => c.k + i) (pr := fun i => .ok (blockProps c fprops (c.k + i))) (n := c.m)
      (i := 0) (j0 := c.first + f - c.k) (P0 := gt fprops f) (U := U2) (fun _ _ _ _ _ _ h => by omega) (by omega) (by omega)
      (by rw [← hbp]; congr 2; omega) (by omega) (fun j _ hj => by
        obtain ⟨b', e, _⟩ := serialize_labelled h44 (hB2 (c.k + j) (by omega) (by omega)) (hlow (c.k + j) (by omega))
        exact ⟨by omega, _, rfl, b', e⟩)
    obtain ⟨q1, q2⟩ := hser _ (hB2 (c.k + (c.first + f - c.k)) (by omega) (by omega))
    refine ⟨fun h => ?_, fun h => ?_⟩
    · obtain ⟨b', hb'⟩ := q1 h
      obtain ⟨U', hU', _⟩ := r1 b' hb'
      refine ⟨U', C', H', ?_, hr'⟩
      rw [e, e2, ok_bind]
      simp only
      rw [if_neg (by decide), hU', ok_bind]; rfl
    · rw [e, e2, ok_bind]
      simp only
      rw [if_neg (by decide), r2 _ (q2 h), error_bind]

/-- 0 is returned when, and only when, the metadata of all fragments fits -/
theorem encode_zero (hc : c.Ok) (hb : c.b = 32) (hpkt : 0 < pkt) (hr : c.Reachable pkt R C H) {U : Array (Array Nat)} (hU : c.Mem bs U)
    {wanted : Array Bool} (hw : c.nOut ≤ wanted.size) (he : c.Encoded (c.dataOf bs U) frags fprops) (h44 : bs < 2 ^ 44) {junk : Nat → Nat → Nat}
    {U' : Array (Array Nat)} {C' : CtxB} {H' : Heap} (h : encode R C U wanted bs junk H = .ok (0, U', C', H')) :
    Fits c bs fprops ∧ Coded c bs U wanted frags fprops U' ∧ c.Reachable pkt R C' H' := by
  have hf : Fits c bs fprops := by
    by_contra hcon
    unfold Fits at hcon
    push Not at hcon
    have hex : ∃ f, f < c.nOut ∧ metaLen bs ≤ (gt fprops f).props.length + 2 := hcon
    classical
    obtain ⟨h1, h2⟩ := Nat.find_spec hex
    have hmin := fun j (hj : j < Nat.find hex) => Nat.find_min hex hj
    generalize Nat.find hex = f at *
    obtain ⟨r1, r2⟩ := encode_unfit hc hb hpkt hr hU hw he h44 junk h1 (fun j hj => by
      have := hmin j hj
      push Not at this
      exact this (by omega)) h2
    rcases Nat.lt_or_ge (metaLen bs) ((gt fprops f).props.length + 2) with h3 | h3
    · obtain ⟨_, _, _, h4, _⟩ := r1 h3
      rw [h] at h4
      have := (Prod.mk.inj (Except.ok.inj h4)).1
      omega
    · rw [r2 (by omega)] at h; cases h
  obtain ⟨U2, C2, H2, e, h1, h2⟩ := encode_fits hc hb hpkt hr hU hw he h44 junk hf
  rw [e] at h
  simp only [Except.ok.injEq, Prod.mk.injEq, true_and] at h
  obtain ⟨rfl, rfl, rfl⟩ := h
  exact ⟨hf, h1, h2⟩

/-- the loop up to a block whose properties cannot be read -/
theorem serLoop_stuck {ms : Nat} {blk : Nat → Nat} {pr : Nat → Res Properties} {j0 : Nat} {x : Err} :
    ∀ {n i : Nat} {U : Array (Array Nat)}, (∀ j j', i ≤ j → j < i + n → i ≤ j' → j' < i + n → blk j = blk j' → j = j') →
      i ≤ j0 → j0 < i + n → pr j0 = .error x →
      (∀ j, i ≤ j → j < j0 → blk j < U.size ∧ ∃ P, pr j = .ok P ∧ ∃ b', serialize ms P (gt U (blk j)) = .ok (0, b')) →
      serLoop ms blk pr n i U = .error x := by
  intro n
  induction n with
  | zero => intro i U _ h1 h2; omega
  | succ n ih =>
    intro i U hinj h1 h2 hP hok
    by_cases hij : i = j0
    · subst hij
      rw [serLoop, hP, error_bind]
    · obtain ⟨g1, P, g2, b', g3⟩ := hok i (le_refl _) (by omega)
      have hne : ∀ j, i + 1 ≤ j → j < i + 1 + n → blk j ≠ blk i := fun j a b he => by
        have := hinj j i (by omega) (by omega) (by omega) (by omega) he
        omega
      rw [serLoop, g2, ok_bind, rd_gt g1, ok_bind, g3, ok_bind]
      simp only
      rw [wr_ok g1, ok_bind, if_neg (by decide)]
      refine ih (fun j j' a b c d h => hinj j j' (by omega) (by omega) (by omega) (by omega) h) (by omega) (by omega) hP (fun j a b => ?_)
      obtain ⟨q1, q2⟩ := hok j (by omega) b
      refine ⟨by simpa using q1, ?_⟩
      rw [gt_set g1, if_neg (hne j a (by omega))]; exact q2

theorem extract_all {α : Type} (a : Array α) {n : Nat} (h : a.size = n) : a.extract 0 n = a := by
  subst h; exact Array.extract_size

/-- what a block holds, as seen through a pointer after its metadata -/
theorem holds_payload {w : Nat} {V : Array (Array Nat)} {i : Nat} {s : List Nat} (hi : i < V.size) (hB : Block bs (gt V i))
    (hs : payload w bs (gt V i) = s) : Holds V (some (i, metadata_size bs)) s := by
  subst hs
  have := Nat.div_mul_le_self bs w
  refine ⟨(i, metadata_size bs), rfl, hi, ?_, block_gt hB, fun y hy => ?_⟩
  · simp only
    rw [payload_length hB.1, hB.1]; omega
  · rw [payload_length hB.1] at hy
    rw [payload_getD hy]

variable {U U' V : Array (Array Nat)} {wanted missing : Array Bool}

/-- reading the properties of the fragments that are left -/
theorem deserLoop_lost (hc : c.Ok) (hU : c.Mem bs U) (he : c.Encoded (c.dataOf bs U) frags fprops) (h32 : bs < 2 ^ 32)
    (hcd : Coded c bs U wanted frags fprops U') (hl : c.Lost U' wanted V missing) :
    ∃ props, deserLoop (metadata_size bs) c.first missing V c.nOut 0 (Array.replicate c.nOut .empty) = .ok (some props) ∧ props.size = c.nOut ∧
      ∀ f, f < c.nOut → gt missing (c.first + f) = false → gt props f = gt fprops f := by
  have hno := @nOut_first c
  have hd := dataOf_data (c := c) (bs := bs) (fun i hi => hU.block i (by omega))
  obtain ⟨_, _, _, _, z5⟩ := encoded_facts hc hd he
  have hfnt := z5 (lt_of_le_of_lt (Nat.div_le_self _ _) h32)
  obtain ⟨props, e, s1, s2, _⟩ := deserLoop_ok (ms := metadata_size bs) (first := c.first) (missing := missing) (U := V) (P := fun f => gt fprops f)
    (n := c.nOut) (i := 0) (props := Array.replicate c.nOut .empty) (by have := hl.msize; omega) (by simp) (fun j _ hj => by rw [gt_replicate (by omega)])
    (fun j _ hj hm => by
      obtain ⟨U1, h1, h2⟩ := hcd.ex
      have := (h2 (c.first + j) (by omega)).read (blockProps_fnt hfnt (by omega))
      rw [show blockProps c fprops (c.first + j) = gt fprops j by unfold blockProps; rw [if_neg (by omega)]; congr 1; omega] at this
      rw [hl.same _ (by omega) hm]
      exact ⟨by have := hl.size; omega, this⟩)
  exact ⟨props, e, by simpa using s1, fun f hf => s2 f (by omega) (by omega)⟩

theorem lost_frag (hcd : Coded c bs U wanted frags fprops U') (hl : c.Lost U' wanted V missing) {f : Nat} (hf : f < c.nOut)
    (hm : gt missing (c.first + f) = false) : Holds V (some (c.first + f, metadata_size bs)) (gt frags f) := by
  have hno := @nOut_first c
  refine holds_payload (w := c.w) (by have := hl.size; omega) ?_ ?_
  · rw [hl.same _ (by omega) hm]; exact hcd.block (by omega)
  · rw [hl.same _ (by omega) hm]; exact hcd.frag hf (hl.wanted f hf hm)

theorem lost_data (hcd : Coded c bs U wanted frags fprops U') (hl : c.Lost U' wanted V missing) (hs : c.sys = true) {i : Nat} (hi : i < c.k)
    (hm : gt missing i = false) : Holds V (some (i, metadata_size bs)) (gt (c.dataOf bs U) i) := by
  refine holds_payload (w := c.w) (by have := hl.size; omega) ?_ ?_
  · rw [hl.same _ (by omega) hm]; exact hcd.block (by omega)
  · rw [hl.same _ (by omega) hm, hcd.data hs hi, dataOf_gt hi]

theorem first_add (f : Nat) : (if c.sys then c.k + f else f) = c.first + f := by unfold FntCode.first; split <;> omega

/-- decoding, up to the metadata of the data blocks -/
theorem decode_eq (hc : c.Ok) (hb : c.b = 32) (hpkt : 0 < pkt) (hr : c.Reachable pkt R C H) (hU : c.Mem bs U)
    (he : c.Encoded (c.dataOf bs U) frags fprops) (h32 : bs < 2 ^ 32) (hcd : Coded c bs U wanted frags fprops U')
    (hl : c.Lost U' wanted V missing) (hV : ∀ i, i < c.k → Block bs (gt V i)) (hn : c.k ≤ missing.toList.count false) (mem : Nat → Nat)
    (junk : Nat → Nat → Nat) :
    ∃ V1 H', ∃ props : Array Properties, c.Reachable pkt R C H' ∧ props.size = c.nOut ∧ V1.size = V.size ∧ (∀ i, i < c.k → Block bs (gt V1 i) ∧
      payload c.w bs (gt V1 i) = payload c.w bs (gt U i)) ∧ (∀ b, c.k ≤ b → gt V1 b = gt V b) ∧
      (∀ b x, metadata_size bs + bs / c.w * c.w ≤ x → gt (gt V1 b) x = gt (gt V b) x) ∧
      decode R V missing bs mem junk H = (do
        let (ret, U) ← serLoop (metadata_size bs) (fun i => i) (fun i => do
          let P ← rd props i
          pure P.clear) c.k 0 V1
        pure (ret, U, H')) := by
  have hO := obj_of hc hr
  have hno := @nOut_first c
  have hd := dataOf_data (c := c) (bs := bs) (fun i hi => hU.block i (by omega))
  have hTb : bs / c.w * c.w ≤ bs := Nat.div_mul_le_self _ _
  obtain ⟨props, e1, p1, p2⟩ := deserLoop_lost hc hU he h32 hcd hl
  have hav : ∀ f, f < c.nOut → gt (availPtrs R (metadata_size bs) missing) f
      = if gt missing (c.first + f) then none else some (c.first + f, metadata_size bs) := fun f hf => by
    unfold availPtrs
    rw [gt_ofFn (by rw [hO.out]; exact hf), firstOut_eq hO]
  obtain ⟨V1, H', e2, hr', s1, s2, s3, s4⟩ := decodeU_mem hc hd he rfl hpkt hr (U := V) (tp := ptrs (metadata_size bs) 0 c.k)
    (dp := availPtrs R (metadata_size bs) missing) (props := props) (missing := missing) (wanted := Array.replicate c.k true) mem junk
    (by simp [availPtrs, hO.out]) (size_ptrs _ _ _) p1 hl.msize
    (fun f hf hm => by
      rw [first_add] at hm
      refine ⟨?_, p2 f hf hm⟩
      rw [hav f hf, hm]
      exact lost_frag hcd hl hf hm)
    (fun hs i hi hm => by
      rw [gt_ptrs hi, Nat.zero_add]
      exact lost_data hcd hl hs hi hm)
    (fun i hi _ => by
      refine ⟨(0 + i, metadata_size bs), gt_ptrs hi, by simp only; have := hl.size; omega, ?_⟩
      simp only [Nat.zero_add]
      rw [(hV i hi).1]; omega)
    (distinct_ptrs _ _ _) (by
      intro j f b base base' h1 h2 h3 h4
      rw [hav j (by simpa [availPtrs, hO.out] using h1)] at h3
      rw [gt_ptrs h2] at h4
      split at h3
      · cases h3
      · simp at h3 h4; omega) (by simp) hn
  have hpay : ∀ i, i < c.k → ∀ y, y < bs / c.w * c.w → gt (gt V1 i) (metadata_size bs + y) = (gt (c.dataOf bs U) i).getD y 0 := by
    intro i hi y hy
    have := s3 i _ y hi (.inl (by rw [gt_replicate hi])) (gt_ptrs hi) hy
    simpa using this
  refine ⟨V1, H', props, hr', p1, s1, fun i hi => ⟨?_, ?_⟩, fun b hb => ?_, fun b x hx => ?_, ?_⟩
  · refine block_of (by rw [s2]; exact (hV i hi).1) (fun x => ?_)
    by_cases hx : metadata_size bs ≤ x ∧ x < metadata_size bs + bs / c.w * c.w
    · have := hpay i hi (x - metadata_size bs) (by omega)
      rw [show metadata_size bs + (x - metadata_size bs) = x by omega, dataOf_gt hi, payload_getD (by omega)] at this
      rw [this]
      exact block_gt (hU.block i (by omega)) _
    · rw [s4 i x (fun j base h1 _ h3 => by
        rw [gt_ptrs h1] at h3
        simp at h3
        omega)]
      exact block_gt (hV i hi) x
  · refine payload_ext (by rw [s2]; exact (hV i hi).1) (payload_length (hU.block i (by omega)).1) (fun y hy => ?_)
    rw [hpay i hi y hy, dataOf_gt hi]
  · refine gt_ext (s2 b) (fun x _ => s4 b x (fun j base h1 _ h3 => ?_))
    rw [gt_ptrs h1] at h3
    simp at h3
    omega
  · refine s4 b x (fun j base h1 _ h3 => ?_)
    rw [gt_ptrs h1] at h3
    simp at h3
    omega
  · rw [hb] at e2
    unfold decode
    simp only
    rw [hO.len, if_neg (by have := hl.msize; omega), firstOut_eq hO, hO.out, e1, ok_bind]
    simp only
    rw [extract_all _ hl.msize, hO.k, e2, ok_bind]
    simp only [if_true]

theorem decode_ok (hc : c.Ok) (hb : c.b = 32) (hpkt : 0 < pkt) (hr : c.Reachable pkt R C H) (hU : c.Mem bs U)
    (he : c.Encoded (c.dataOf bs U) frags fprops) (h32 : bs < 2 ^ 32) (hcd : Coded c bs U wanted frags fprops U')
    (hl : c.Lost U' wanted V missing) (hV : ∀ i, i < c.k → Block bs (gt V i)) (hn : c.k ≤ missing.toList.count false) (mem : Nat → Nat)
    (junk : Nat → Nat → Nat) (hkm : c.k ≤ c.nOut) :
    ∃ V' H', decode R V missing bs mem junk H = .ok (0, V', H') ∧ c.Reachable pkt R C H' ∧ V'.size = V.size ∧
      (∀ i, i < c.k → Block bs (gt V' i) ∧ payload c.w bs (gt V' i) = payload c.w bs (gt U i) ∧
        ∀ x, metadata_size bs + bs / c.w * c.w ≤ x → gt (gt V' i) x = gt (gt V i) x) ∧ ∀ b, c.k ≤ b → gt V' b = gt V b := by
  obtain ⟨V1, H', props, hr', p1, s1, s2, s3, s4, e⟩ := decode_eq hc hb hpkt hr hU he h32 hcd hl hV hn mem junk
  have hsz := hl.size
  obtain ⟨V', e2, t1, t2, t3⟩ := serLoop_labelled (bs := bs) (by omega) (n := c.k) (first := 0) (U := V1) (P := fun _ => .empty) (by omega)
    (fun i hi => by rw [Nat.zero_add]; exact (s2 i hi).1) (fun i hi => by show 0 + 2 < _; unfold metaLen; omega)
  simp only [Nat.zero_add] at e2 t2 t3
  refine ⟨V', H', ?_, hr', by omega, fun i hi => ?_, fun b hb => by rw [t3 b (.inr hb), s3 b hb]⟩
  · rw [e]
    have : serLoop (metadata_size bs) (fun i => i) (fun i => do
          let P ← rd props i
          pure P.clear) c.k 0 V1 = .ok (0, V') := by
      rw [← e2]
      refine serLoop_congr (fun j _ hj => ?_)
      rw [rd_gt (by omega), ok_bind]; rfl
    rw [this, ok_bind]; rfl
  · obtain ⟨h1, h2⟩ := s2 i hi
    refine ⟨block_of (by rw [(t2 i hi).size]; exact h1.1) (t2 i hi).bytes, ?_, fun x hx => ?_⟩
    · rw [(t2 i hi).payload h1.1, h2]
    · rw [(t2 i hi).keep x (by omega), s4 i x hx]

/-- with fewer parities than data fragments the systematic code reads past its table of properties -/
theorem decode_ub (hc : c.Ok) (hb : c.b = 32) (hpkt : 0 < pkt) (hr : c.Reachable pkt R C H) (hU : c.Mem bs U)
    (he : c.Encoded (c.dataOf bs U) frags fprops) (h32 : bs < 2 ^ 32) (hcd : Coded c bs U wanted frags fprops U')
    (hl : c.Lost U' wanted V missing) (hV : ∀ i, i < c.k → Block bs (gt V i)) (hn : c.k ≤ missing.toList.count false) (mem : Nat → Nat)
    (junk : Nat → Nat → Nat) (hkm : c.nOut < c.k) : decode R V missing bs mem junk H = .error .ub := by
  obtain ⟨V1, H', props, hr', p1, s1, s2, s3, s4, e⟩ := decode_eq hc hb hpkt hr hU he h32 hcd hl hV hn mem junk
  have hsz := hl.size
  rw [e, serLoop_stuck (j0 := c.nOut) (x := .ub) (fun _ _ _ _ _ _ h => h) (by omega) (by omega) (by simp [rd, p1, ub]) (fun j _ hj => by
    obtain ⟨b', e, _⟩ := serialize_labelled (bs := bs) (by omega) (s2 j (by omega)).1 (P := .empty) (by show 0 + 2 < _; unfold metaLen; omega)
    exact ⟨by omega, .empty, by rw [rd_gt (by omega), ok_bind]; rfl, b', e⟩)]
  rfl

end Quad.CApi
