import Verif.Spec.Rand
import Verif.Lemmas.NF4Ops
import Verif.Lemmas.ArithExp
import Verif.Props.Vec
import Verif.Props.NF4

/-!
# C67: `rand` returns nonzero elements, and can return each of them

True of every ring and field whose cardinal is at most 2^64 (`C67_ring_partial`, `C67_binary_partial`), of the packed
field (`C67_packed`), and `Vector::rand` writes such elements and nothing else (`C67_vector_partial`, `C67_view_partial`).

False of rings with more than 2^64 elements: 2^64 is never returned (`C67_ring_128_misses`), whole ranges of elements
are never returned (`C67_ring_128_reaches`), for many cardinals values which are not elements can be returned
(`C67_ring_128_outside`), and GF(2^n) for n ≥ 65 only ever returns elements below 2^64 (`C67_binary_128_small`).
`unpacked_rand` cannot tell an element with a lane of 65536 from one with a lane of 0 and can return 0
(`C67_unpacked`).
-/

namespace Quad

open Spec

/-- `rand` on a ring or prime field of `card ≤ 2^64` elements -/
theorem C67_ring_partial {b card : Nat} (hb : b = 8 ∨ b = 16 ∨ b = 32 ∨ b = 64 ∨ b = 128) (h2 : 2 ≤ card) (hc : card < 2 ^ b)
    (h64 : card ≤ 2 ^ 64) (v : Nat) : CanReturn b card v ↔ NonZero card v := by
  have up : rand_upper_bound b card = card - 1 := by
    unfold rand_upper_bound predU64
    split
    · omega
    · rw [if_neg (by omega)]; omega
  have le : rand_leading_bound card = 0 := by
    unfold rand_leading_bound
    split
    · omega
    · rfl
  have out : ∀ d, d < card → ringRand b card d 0 = d := by
    intro d hd
    unfold ringRand
    split
    · split
      · rw [Nat.zero_shiftLeft]
        simp [wrap]
      · rfl
    · exact Arith.wrap_of_lt (by omega)
  constructor
  · rintro ⟨d0, d1, ⟨h1, h2'⟩, h3, rfl⟩
    rw [up] at h2'
    have : d1 = 0 := by unfold DrawLeading at h3; omega
    subst this
    rw [out d0 (by omega)]
    exact ⟨h1, by omega⟩
  · rintro ⟨h1, h3⟩
    exact ⟨v, 0, ⟨h1, by omega⟩, Nat.zero_le _, out v h3⟩

/-- `rand` on GF(2^n), built in words of `b ≥ n` bits: the constructor computes the cardinal as a word, which wraps to 0
when `n = b` -/
theorem C67_binary_partial {b n : Nat} (hb : b = 32 ∨ b = 64 ∨ b = 128) (h1 : 1 ≤ n) (hn : n ≤ b) (h64 : n ≤ 64) (v : Nat) :
    CanReturn b (Arith.exp b 2 n) v ↔ NonZero (2 ^ n) v := by
  rw [Arith.exp_eq (by omega)]
  by_cases e : n = b
  · subst e
    have w : wrap n (2 ^ n) = 0 := by unfold wrap; exact Nat.mod_self _
    rw [w]
    have up : rand_upper_bound n 0 = 2 ^ n - 1 := by
      rcases hb with rfl | rfl | rfl
      · rfl
      · rfl
      · omega
    have out : ∀ d, d < 2 ^ n → ringRand n 0 d 0 = d := by
      intro d hd
      unfold ringRand
      rw [if_neg (by omega)]
      exact Arith.wrap_of_lt hd
    have pos : 0 < 2 ^ n := Nat.two_pow_pos n
    constructor
    · rintro ⟨d0, d1, ⟨k1, k2⟩, k3, rfl⟩
      rw [up] at k2
      have : d1 = 0 := Nat.le_zero.1 k3
      subst this
      rw [out d0 (by omega)]
      exact ⟨k1, by omega⟩
    · rintro ⟨k1, k3⟩
      exact ⟨v, 0, ⟨k1, by rw [up]; omega⟩, Nat.zero_le _, out v k3⟩
  · have lt : 2 ^ n < 2 ^ b := Nat.pow_lt_pow_right (by decide) (by omega)
    rw [Arith.wrap_of_lt lt]
    refine C67_ring_partial (by omega) ?_ lt (Nat.pow_le_pow_right (by decide) h64) v
    calc 2 = 2 ^ 1 := rfl
      _ ≤ 2 ^ n := Nat.pow_le_pow_right (by decide) h1

/-- what `rand` can return on rings of more than 2^64 elements: a nonzero low half and a high half of at most the low half
of `card` -/
theorem C67_ring_128_reaches {card : Nat} (h : 2 ^ 64 < card) (hc : card < 2 ^ 128) (v : Nat) :
    CanReturn 128 card v ↔ 1 ≤ v % 2 ^ 64 ∧ v / 2 ^ 64 ≤ card % 2 ^ 64 := by
  have up : rand_upper_bound 128 card = 2 ^ 64 - 1 := if_pos (by omega)
  have le : rand_leading_bound card = card % 2 ^ 64 := by
    unfold rand_leading_bound
    rw [if_pos (by omega)]
    omega
  have out : ∀ d0 d1, d0 < 2 ^ 64 → d1 < 2 ^ 64 → ringRand 128 card d0 d1 = d0 + 2 ^ 64 * d1 := by
    intro d0 d1 h0 h1
    unfold ringRand
    rw [if_pos rfl, if_pos (by omega), Arith.wrap_of_lt (by rw [Nat.shiftLeft_eq]; omega), Nat.or_comm, NF4.or_shift h0]
  constructor
  · rintro ⟨d0, d1, ⟨k1, k2⟩, k3, rfl⟩
    rw [up] at k2
    unfold DrawLeading at k3
    rw [le] at k3
    rw [out d0 d1 (by omega) (by omega)]
    omega
  · rintro ⟨k1, k2⟩
    refine ⟨v % 2 ^ 64, v / 2 ^ 64, ⟨k1, by omega⟩, ?_, ?_⟩
    · unfold DrawLeading; rw [le]; exact k2
    · rw [out _ _ (by omega) (by omega)]
      omega

/-- the element 2^64 is never returned -/
theorem C67_ring_128_misses {card : Nat} (h : 2 ^ 64 < card) (hc : card < 2 ^ 128) :
    NonZero card (2 ^ 64) ∧ ¬ CanReturn 128 card (2 ^ 64) := by
  refine ⟨⟨by decide, h⟩, fun k => ?_⟩
  have := (C67_ring_128_reaches h hc _).1 k
  omega

/-- values which are not elements are returned as soon as the low half of the cardinal is at least its high half -/
theorem C67_ring_128_outside {card : Nat} (h : 2 ^ 64 < card) (hc : card < 2 ^ 128) :
    (∃ v, CanReturn 128 card v ∧ ¬ v < card) ↔ card / 2 ^ 64 ≤ card % 2 ^ 64 := by
  constructor
  · rintro ⟨v, k, hv⟩
    have := (C67_ring_128_reaches h hc _).1 k
    omega
  · intro k
    refine ⟨2 ^ 64 * (card % 2 ^ 64) + (2 ^ 64 - 1), (C67_ring_128_reaches h hc _).2 ?_, ?_⟩ <;> omega

/-- GF(2^n) with more than 2^64 elements: the elements from 2^64 on are never returned -/
theorem C67_binary_128_small {n : Nat} (h : 64 < n) (hn : n ≤ 128) (v : Nat) :
    CanReturn 128 (Arith.exp 128 2 n) v ↔ 1 ≤ v ∧ v < 2 ^ 64 := by
  rw [Arith.exp_eq (by omega)]
  by_cases e : n = 128
  · subst e
    have w : wrap 128 (2 ^ 128) = 0 := by unfold wrap; exact Nat.mod_self _
    rw [w]
    have up : rand_upper_bound 128 0 = 2 ^ 64 - 1 := by decide
    have out : ∀ d0 d1, ringRand 128 0 d0 d1 = d0 := fun _ _ => rfl
    constructor
    · rintro ⟨d0, d1, ⟨k1, k2⟩, k3, rfl⟩
      rw [up] at k2
      rw [out]
      omega
    · rintro ⟨k1, k2⟩
      exact ⟨v, 0, ⟨k1, by rw [up]; omega⟩, Nat.zero_le _, rfl⟩
  · have lt : 2 ^ n < 2 ^ 128 := Nat.pow_lt_pow_right (by decide) (by omega)
    have gt : 2 ^ 64 < 2 ^ n := Nat.pow_lt_pow_right (by decide) h
    rw [Arith.wrap_of_lt lt, C67_ring_128_reaches gt lt]
    have : 2 ^ n % 2 ^ 64 = 0 := Nat.mod_eq_zero_of_dvd (Nat.pow_dvd_pow 2 (by omega))
    rw [this]
    omega

/-! ## The packed field -/

/-- the lanes of what `NF4::rand` returns are the draws, the first one in the highest lane -/
theorem rand_word {b n : Nat} {d : Nat → Nat} (hd : ∀ i, Draw 32 65537 (d i)) (hb : 32 * n ≤ b) : ∀ k j, j + k = n → 0 < j →
    NF4.randLoop b d k j (NF4.word 32 j (fun l => d (j - 1 - l))) = NF4.word 32 n (fun l => d (n - 1 - l)) := by
  have lt : ∀ i, d i < 2 ^ 32 := fun i => lt_of_le_of_lt (hd i).2 (by decide)
  intro k
  induction k with
  | zero => intro j h _; rw [show j = n by omega]; rfl
  | succ k ih =>
    intro j h hj
    rw [NF4.randLoop, ← ih (j + 1) (by omega) (by omega)]
    congr 1
    have hl := NF4.word_lt (s := 32) (n := j) (f := fun l => d (j - 1 - l)) (fun _ _ => lt _)
    have hw : 2 ^ 32 * 2 ^ (32 * j) ≤ 2 ^ b := by
      rw [← NF4.pow_split]; exact Nat.pow_le_pow_right (by decide) (by omega)
    have e : ringRand 32 65537 (d j) 0 = d j := Arith.wrap_of_lt (lt j)
    rw [NF4.word_succ]
    have e' : NF4.word 32 j (fun l => d (j + 1 - 1 - (l + 1))) = NF4.word 32 j (fun l => d (j - 1 - l)) := by
      congr 1
      funext l
      congr 1
      omega
    rw [e']
    set c := NF4.word 32 j (fun l => d (j - 1 - l)) with hc
    have h2 : c * 2 ^ 32 < 2 ^ b := by
      calc _ < 2 ^ (32 * j) * 2 ^ 32 := Nat.mul_lt_mul_of_pos_right hl (by decide)
        _ ≤ 2 ^ b := by rw [mul_comm]; exact hw
    rw [NF4.shift32 h2, e, NF4.or_shift (lt j)]
    rfl

theorem rand_eq {b n : Nat} {simd} {N : NF4} (H : IsNf4 N b n simd) {d : Nat → Nat} (hd : ∀ i, Draw 32 65537 (d i)) :
    N.rand d = NF4.word 32 n (fun l => d (n - 1 - l)) := by
  have lt : ∀ i, d i < 2 ^ 32 := fun i => lt_of_le_of_lt (hd i).2 (by decide)
  have := rand_word hd H.build.fit (n - 1) 1 (by have := H.build.pos; omega) (by omega)
  have hb : d 0 < 2 ^ b := by
    have : 2 ^ 32 ≤ 2 ^ b := Nat.pow_le_pow_right (by decide) (by have := H.build.fit; have := H.build.pos; omega)
    have := lt 0
    omega
  have e : wrap b (ringRand 32 65537 (d 0) 0) = NF4.word 32 1 (fun l => d (1 - 1 - l)) := by
    rw [show ringRand 32 65537 (d 0) 0 = d 0 from Arith.wrap_of_lt (lt 0), Arith.wrap_of_lt hb]
    simp [NF4.word]
  unfold NF4.rand
  rw [H.nb, H.nn, e]
  exact this

/-- `rand` on the packed field returns words all of whose lanes are nonzero elements of GF(65537), and can return each
such word -/
theorem C67_packed {b n : Nat} {simd} {N : NF4} (H : IsNf4 N b n simd) (v : Nat) :
    CanReturnPacked N v ↔ Packed n v ∧ ∀ l, l < n → NonZero 65537 (lane32 v l) := by
  constructor
  · rintro ⟨d, hd, rfl⟩
    rw [rand_eq H hd]
    have up : ∀ i, 1 ≤ d i ∧ d i ≤ 65536 := hd
    have lane : ∀ l, l < n → lane32 (NF4.word 32 n (fun l => d (n - 1 - l))) l = d (n - 1 - l) :=
      fun l hl => NF4.word_lane (fun l _ => by have := up (n - 1 - l); omega) hl
    refine ⟨⟨NF4.word_lt (fun l _ => by have := up (n - 1 - l); omega), fun l hl => ?_⟩, fun l hl => ?_⟩
    · rw [lane l hl]; have := up (n - 1 - l); omega
    · rw [lane l hl]; have := up (n - 1 - l); exact ⟨by omega, by omega⟩
  · rintro ⟨hp, hz⟩
    have hd : ∀ i, Draw 32 65537 (if i < n then lane32 v (n - 1 - i) else 1) := by
      intro i
      by_cases hi : i < n
      · rw [if_pos hi]
        obtain ⟨h1, h2⟩ := hz (n - 1 - i) (by omega)
        exact ⟨h1, by show _ ≤ 65536; omega⟩
      · rw [if_neg hi]
        exact ⟨by decide, by decide⟩
    refine ⟨_, hd, ?_⟩
    rw [rand_eq H hd]
    rw [← NF4.word_lanes (s := 32) (n := n) hp.lt]
    refine NF4.word_congr (fun l hl => ?_)
    rw [if_pos (by omega), show n - 1 - (n - 1 - l) = l by omega, NF4.word_lanes hp.lt]
    rfl

/-- `unpacked_rand` returns `n` values of 16 bits, and can return any: 65536 becomes 0 -/
theorem C67_unpacked {b n : Nat} {simd} {N : NF4} (H : IsNf4 N b n simd) (v : Nat) :
    CanReturnUnpacked N v ↔ v < 2 ^ (16 * n) := by
  have l16 : ∀ l, lane16 v l < 2 ^ 16 := fun l => Nat.mod_lt _ (by decide)
  constructor
  · rintro ⟨d, hd, rfl⟩
    obtain ⟨hp, hz⟩ := (C67_packed H _).1 ⟨d, hd, rfl⟩
    unfold NF4.unpacked_rand
    rw [H.unpack_eq hp]
    refine NF4.word_lt fun l hl => ?_
    have := hp.lane l hl
    split <;> omega
  · intro hv
    have lt : ∀ l, (if lane16 v l = 0 then 65536 else lane16 v l) < 2 ^ 32 := fun l => by
      have := l16 l
      split <;> omega
    have lane : ∀ l, l < n → lane32 (NF4.word 32 n (fun l => if lane16 v l = 0 then 65536 else lane16 v l)) l =
        if lane16 v l = 0 then 65536 else lane16 v l := fun l hl => NF4.word_lane (fun l _ => lt l) hl
    have hp : Packed n (NF4.word 32 n (fun l => if lane16 v l = 0 then 65536 else lane16 v l)) := by
      refine ⟨NF4.word_lt (fun l _ => lt l), fun l hl => ?_⟩
      rw [lane l hl]
      have := l16 l
      split <;> omega
    obtain ⟨d, hd, e⟩ := (C67_packed H _).2 ⟨hp, fun l hl => by
      rw [lane l hl]
      have := l16 l
      unfold NonZero
      split <;> omega⟩
    refine ⟨d, hd, ?_⟩
    unfold NF4.unpacked_rand
    rw [e, H.unpack_eq hp]
    show NF4.word 16 n _ = v
    rw [← NF4.word_lanes (s := 16) (n := n) hv]
    refine NF4.word_congr (fun l hl => ?_)
    rw [NF4.word_lanes hv]
    show (if lane32 _ l = 65536 then 0 else lane32 _ l) = lane16 v l
    rw [lane l hl]
    have := l16 l
    by_cases z : lane16 v l = 0
    · rw [if_pos z, if_pos rfl, z]
    · rw [if_neg z, if_neg (by omega)]

/-! ## Vectors -/

namespace Vec

open Obj

/-- `rand()` of a vector or slice over a ring of `card ≤ 2^64` elements: every element becomes a nonzero element of the
ring, and nothing else changes -/
theorem _root_.Quad.C67_vector_partial {b card : Nat} (hb : b = 8 ∨ b = 16 ∨ b = 32 ∨ b = 64 ∨ b = 128) (h2 : 2 ≤ card) (hc : card < 2 ^ b)
    (h64 : card ≤ 2 ^ 64) {H : Heap} {o : Obj} (h : Plain H o) {r : Nat → Nat} (hr : ∀ i, CanReturn b card (r i)) :
    (∀ i, NonZero card (r i)) ∧ ∃ H', o.rand H r = ok H' ∧ Effect H H' o.get_n o.at' r := by
  refine ⟨fun i => (C67_ring_partial hb h2 hc h64 _).1 (hr i), ?_⟩
  rw [h.get_n]
  exact forN_effect (at_inj _ _) fun i H1 hi e => h.shows.set H1 i (r i) e.shape hi

/-- `rand()` of a view writes the elements of the view, provided these are distinct elements of `vec` -/
theorem _root_.Quad.C67_view_partial {b card : Nat} (hb : b = 8 ∨ b = 16 ∨ b = 32 ∨ b = 64 ∨ b = 128) (h2 : 2 ≤ card) (hc : card < 2 ^ b)
    (h64 : card ≤ 2 ^ 64) {H : Heap} {vec w : Obj} (h : Plain H vec) {n offset step : Nat}
    (hn : n ≤ vec.get_n) (h0 : 0 < vec.get_n) (hw : mkView vec n offset step = ok w)
    (inj : ∀ i j, i < j → j < n → (offset + step * i) % vec.get_n ≠ (offset + step * j) % vec.get_n)
    {r : Nat → Nat} (hr : ∀ i, CanReturn b card (r i)) :
    (∀ i, NonZero card (r i)) ∧
    ∃ H', w.rand H r = ok H' ∧ Effect H H' n (fun i => vec.at' ((offset + step * i) % vec.get_n)) r := by
  refine ⟨fun i => (C67_ring_partial hb h2 hc h64 _).1 (hr i), ?_⟩
  simp only [mkView, cassert, decide_eq_true hn, if_true, ok_bind, Except.ok.injEq] at hw
  subst hw
  have s := (h.get_n ▸ h.shows : Shows H vec vec.get_n vec.at').view h0
    ⟨n, vec.get_mem, vec.get_mem_len, false⟩ offset step
  refine forN_effect (fun i j hij hj q => ?_) fun i H1 hi e => s.set H1 i (r i) e.shape hi
  have : vec.base.mem.off + (offset + step * i) % vec.get_n = vec.base.mem.off + (offset + step * j) % vec.get_n :=
    congrArg Prod.snd q
  exact inj i j hij hj (by omega)

end Vec

/-! ## Concrete cases -/

/-- GF(65537) on 32 bits: 65536 can be drawn, 0 and 65537 cannot -/
example : CanReturn 32 65537 65536 ∧ ¬ CanReturn 32 65537 0 ∧ ¬ CanReturn 32 65537 65537 := by
  have h := C67_ring_partial (b := 32) (card := 65537) (by decide) (by decide) (by decide) (by decide)
  exact ⟨(h _).2 ⟨by decide, by decide⟩, fun k => absurd ((h _).1 k).1 (by decide), fun k => absurd ((h _).1 k).2 (by decide)⟩

/-- GF(2^32) on 32 bits, whose cardinal wraps: all 32-bit words but 0 -/
example : CanReturn 32 (Arith.exp 32 2 32) (2 ^ 32 - 1) :=
  (C67_binary_partial (by decide) (by decide) (by decide) (by decide) _).2 ⟨by decide, by decide⟩

/-- integers modulo 2^64 + 13: 2^67 can be drawn; modulo 2^127 - 1 (a prime), 2^127 + 1 can be drawn -/
example : CanReturn 128 (2 ^ 64 + 13) (2 ^ 67 + 1) ∧ CanReturn 128 (2 ^ 127 - 1) (2 ^ 127 + 1) :=
  ⟨(C67_ring_128_reaches (by decide) (by decide) _).2 (by decide), (C67_ring_128_reaches (by decide) (by decide) _).2 (by decide)⟩

/-- packed elements: `(65536, 1)` can be drawn, and unpacks to `(0, 1)` -/
example : ∃ N, NF4.mk' 64 2 none = .ok N ∧ CanReturnPacked N (65536 * 2 ^ 32 + 1) ∧ ¬ CanReturnPacked N 1 ∧ CanReturnUnpacked N 0 := by
  obtain ⟨N, e, H⟩ := Props.C15_constructor (b := 64) (n := 2) (simd := none) ⟨by decide, by decide, by decide, fun _ _ h => nomatch h⟩
  refine ⟨N, e, (C67_packed H _).2 ⟨⟨by decide, ?_⟩, ?_⟩, fun k => ?_, (C67_unpacked H _).2 (by decide)⟩
  · decide
  · unfold NonZero; decide
  · exact absurd (((C67_packed H _).1 k).2 1 (by decide)).1 (by decide)

/-- three of six elements of a vector drawn over GF(257) -/
example : ∃ w H', Vec.Obj.mkView Vec.vecA 3 1 2 = .ok w ∧ w.rand Vec.heapA (fun i => 256 - i) = .ok H' ∧
    H' = #[#[10, 256, 12, 255, 14, 254], #[20, 21, 22, 23, 24, 25]] := ⟨_, _, rfl, rfl, rfl⟩

end Quad
