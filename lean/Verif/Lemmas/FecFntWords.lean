import Verif.Lemmas.FecFnt
import Verif.Lemmas.FecStream
import Verif.Lemmas.Buffers

/-! A transform into a vector that is too short is undefined behaviour, and so is encoding word by word in systematic mode. -/

namespace Quad

theorem forN_ubOr {σ : Type _} {n : Nat} {s : σ} {f : Nat → σ → Res σ} (I : σ → Prop) (h0 : I s)
    (hs : ∀ i s, i < n → I s → f i s = .error .ub ∨ ∃ s', f i s = .ok s' ∧ I s') :
    (forN n s f = .error .ub ∨ ∃ s', forN n s f = .ok s' ∧ I s') ∧
      ((∃ j, j < n ∧ ∀ s, I s → f j s = .error .ub) → forN n s f = .error .ub) := by
  induction n with
  | zero => exact ⟨.inr ⟨s, rfl, h0⟩, fun ⟨j, hj, _⟩ => absurd hj (by omega)⟩
  | succ n ih =>
    obtain ⟨i1, i2⟩ := ih (fun i s hi => hs i s (by omega))
    constructor
    · rcases i1 with e | ⟨s1, e, h1⟩
      · exact .inl (by simp [forN, e])
      · rcases hs n s1 (by omega) h1 with e2 | ⟨s2, e2, h2⟩
        · exact .inl (by simp [forN, e, e2])
        · exact .inr ⟨s2, by simp [forN, e, e2], h2⟩
    · rintro ⟨j, hj, hf⟩
      rcases i1 with e | ⟨s1, e, h1⟩
      · simp [forN, e]
      · by_cases hjn : j < n
        · rw [i2 ⟨j, hjn, hf⟩] at e; cases e
        · have : j = n := by omega
          subst this
          simp [forN, e, hf s1 h1]

theorem wr_or {α : Type} {a : Array α} {i : Nat} {x : α} : wr a i x = .error .ub ∨ ∃ a', wr a i x = .ok a' ∧ a'.size = a.size := by
  unfold wr
  split
  · exact .inr ⟨_, rfl, by simp⟩
  · exact .inl rfl

namespace Radix2
variable {β : Type}

theorem fillRange_or {a : Array β} {start len : Nat} {x : β} :
    (fillRange a start len x = .error .ub ∨ ∃ a', fillRange a start len x = .ok a' ∧ a'.size = a.size) ∧
      (0 < len → a.size < start + len → fillRange a start len x = .error .ub) := by
  have h := forN_ubOr (n := len) (s := a) (f := fun t a => wr a (start + t) x) (fun a' => a'.size = a.size) rfl
    (fun i s _ hs => by
      rcases wr_or (a := s) (i := start + i) (x := x) with e | ⟨a', e, h⟩
      · exact .inl e
      · exact .inr ⟨a', e, h.trans hs⟩)
  refine ⟨h.1, fun h0 hlt => h.2 ⟨len - 1, by omega, fun s hs => ?_⟩⟩
  unfold wr
  rw [if_neg (by omega)]

/-- `fft` into a vector shorter than the transform -/
theorem fftG_short [Inhabited β] {K : Type} [Field K] {R : Radix2} {S : R.F.Sim K} {L d : Nat} (C : Cell β) (hG : R.Good S L) (hd : d ≤ L)
    (hdl : R.data_len = 2 ^ d) {out input : Array β} (hin : input.size ≤ 2 ^ d) (hout : out.size < 2 ^ L) :
    R.fftG C out input = .error .ub := by
  have hdL : 2 ^ d ≤ 2 ^ L := Nat.pow_le_pow_right (by omega) hd
  have hd0 : 0 < 2 ^ d := by positivity
  have hgl : R.groupLen input.size = .ok (2 ^ (L - d)) := by
    unfold Radix2.groupLen
    rw [hdl, if_neg (show ¬ input.size > 2 ^ d by omega), hG.n]
    simp only
    rw [if_neg (by omega), two_pow_div hd]
  have hrd : ∀ idx, idx < 2 ^ d → rd R.rev idx = .ok (2 ^ (L - d) * bitrev d idx) := by
    intro idx h
    rw [rd_gt (by rw [hG.revSize]; omega), hG.rev idx (by omega), ← bitrev_short _ _ _ h, show L - d + d = L by omega]
  set last := bitrev d (2 ^ d - 1) with hlast
  have hl1 : last < 2 ^ d := bitrev_lt d _
  have hl2 : bitrev d last = 2 ^ d - 1 := bitrev_bitrev d _ (by omega)
  have hg : 0 < 2 ^ (L - d) := by positivity
  have hend : 2 ^ (L - d) * bitrev d last + 2 ^ (L - d) = 2 ^ L := by
    rw [hl2]
    calc 2 ^ (L - d) * (2 ^ d - 1) + 2 ^ (L - d) = 2 ^ (L - d) * (2 ^ d - 1 + 1) := by ring
      _ = 2 ^ (L - d) * 2 ^ d := by rw [Nat.sub_add_cancel hd0]
      _ = 2 ^ L := by rw [← pow_add]; congr 1; omega
  have h1 := forN_ubOr (n := input.size) (s := out) (f := fun idx out => do
      let a ← rd input idx
      let r ← rd R.rev idx
      fillRange out r (2 ^ (L - d)) a) (fun o => o.size = out.size) rfl
    (fun i s hi hs => by
      rw [rd_gt hi, hrd i (by omega)]
      rcases (fillRange_or (a := s) (start := 2 ^ (L - d) * bitrev d i) (len := 2 ^ (L - d)) (x := gt input i)).1 with e | ⟨a', e, h⟩
      · exact .inl e
      · exact .inr ⟨a', e, h.trans hs⟩)
  unfold fftG
  rw [hgl]
  simp only [ok_bind]
  suffices h : R.scatter C (2 ^ (L - d)) out input = .error .ub by rw [h]; rfl
  unfold scatter
  rcases h1.1 with e | ⟨o, e, ho⟩
  · rw [e]; rfl
  rw [e, ok_bind]
  by_cases hli : last < input.size
  · rw [h1.2 ⟨last, hli, fun s hs => by
      rw [rd_gt hli, hrd last hl1]
      exact fillRange_or.2 hg (by rw [hend]; omega)⟩] at e
    cases e
  · unfold forStep
    have hst : stride input.size R.data_len 1 = 2 ^ d - input.size := by unfold stride; rw [hdl]; omega
    rw [hst]
    refine (forN_ubOr (fun o => o.size = out.size) ho (fun i s hi hs => ?_)).2 ⟨last - input.size, by omega, fun s hs => ?_⟩
    · simp only
      rw [hrd _ (by omega)]
      rcases (fillRange_or (a := s) (start := 2 ^ (L - d) * bitrev d (input.size + i * 1)) (len := 2 ^ (L - d)) (x := C.zero)).1 with e | ⟨a', e, h⟩
      · exact .inl e
      · exact .inr ⟨a', e, h.trans hs⟩
    · simp only
      rw [show input.size + (last - input.size) * 1 = last by omega, hrd _ hl1]
      exact fillRange_or.2 hg (by rw [hend]; omega)

end Radix2

namespace RsFnt

/-- the transform of a code -/
theorem mkBase_fft {b db w k m pkt : Nat} {sys : Bool} {mem : Nat → Nat} {B : FecBase} (h : mkBase b db sys w k m pkt mem = .ok B) :
    ∃ l R, Arith.ceil2 32 k = .ok l ∧ Radix2.mk' B.F B.n l = .ok R ∧ B.fft = R.ft pkt := by
  unfold mkBase at h
  obtain ⟨_, _, h⟩ := bind_ok h
  obtain ⟨O, _, h⟩ := bind_ok h
  obtain ⟨_, _, h⟩ := bind_ok h
  obtain ⟨_, _, h⟩ := bind_ok h
  obtain ⟨n, _, h⟩ := bind_ok h
  obtain ⟨r, _, h⟩ := bind_ok h
  obtain ⟨l, hl, h⟩ := bind_ok h
  obtain ⟨R, hR, h⟩ := bind_ok h
  obtain ⟨_, _, h⟩ := bind_ok h
  obtain ⟨_, _, h⟩ := bind_ok h
  obtain ⟨_, _, h⟩ := bind_ok h
  obtain ⟨_, _, h⟩ := bind_ok h
  obtain ⟨_, _, h⟩ := bind_ok h
  obtain ⟨_, _, h⟩ := bind_ok h
  refine ⟨l, R, hl, ?_⟩
  rw [← Except.ok.inj h]
  exact ⟨hR, rfl⟩

/-- encoding into fewer words than the transform has -/
theorem encode_short {p w k m : Nat} [Fact p.Prime] {b db pkt : Nat} {sys : Bool} {mem : Nat → Nat} {B : FecBase}
    (h : mkBase b db sys w k m pkt mem = .ok B) {S : B.F.Sim (ZMod p)} {n len_2k : Nat} {g g2 : ZMod p} (hn : B.n = n)
    (hF : Ffts B p k S n len_2k g g2) {output words : Array Nat} {props : Array Properties} {offset : Nat} (hw : words.size = k)
    (ho : output.size < n) : encode B output props offset words = .error .ub := by
  obtain ⟨l, R', hl, hR', hf⟩ := mkBase_fft h
  obtain ⟨L, L2, d, R, R2, h1, _, _, _, hd, hk, hc, hR, _, ⟨S', _, _, _, hG, hdl, _⟩, _⟩ := hF.ex
  rw [hc] at hl
  rw [← Except.ok.inj hl, hn, hR] at hR'
  rw [← Except.ok.inj hR'] at hf
  unfold encode
  rw [hf]
  have : (R.ft pkt).fft output words = .error .ub := Radix2.fftG_short (wordCell R.F) hG hd hdl (by omega) (by omega)
  rw [this]
  rfl

/-- word by word the systematic code cannot encode: `output` has as many words as there are parities -/
theorem encode_horizontal_ub {p w k m : Nat} [Fact p.Prime] {b db pkt : Nat} {mem : Nat → Nat} {B : FecBase}
    (h : mkBase b db true w k m pkt mem = .ok B) (hs : B.sys = true) {S : B.F.Sim (ZMod p)} {n len_2k : Nat} {g g2 : ZMod p}
    {okLen : Nat → Prop} (hG : Good B p (8 * w) k m S n len_2k g g2 okLen) (hF : Ffts B p k S n len_2k g g2) (hws : WordSize B.word_size)
    (hkm : m < n) {data outs : Array (List Nat)} {props : Array Properties} {mem' : Nat → Nat} (hd : data.size = k) (ho : outs.size = m)
    (hp : props.size = m) (hlen : ∀ i, i < k → B.word_size ≤ (gt data i).length) :
    (fec B).encode_streams_horizontal data outs props mem' = .error .ub := by
  have hkd : (fec B).base.n_data = k := hG.n_data
  have hno : (fec B).base.n_outputs = m := by
    show B.n_outputs = m
    rw [hG.n_outputs, hs]; rfl
  have hgo : (fec B).get_n_outputs = m := by
    show (if B.sys then B.n_parities else B.n) = m
    rw [hs, if_pos rfl]
    exact hG.n_parities
  unfold Fec.encode_streams_horizontal
  rw [hkd, hno, hgo]
  simp only [hd, ho, hp, decide_true, cassert, if_true, ok_bind]
  obtain ⟨st, ws, c, e, _, hws', hc, _⟩ := readRow_spec (w := B.word_size) (count := k) (dst := 0) (idx := fun i => .ok i) (ix := id)
    (streams := data.map some) (words := Array.replicate (fresh mem' k).size 0) (R := gt data) hws (fun _ _ => rfl) (fun _ _ _ _ h => h)
    (fun i hi => by simpa [hd] using hi) (fun i hi => by
      have : i < data.size := by omega
      simp [gt, this]) (by simp [fresh])
  unfold Fec.encLoop
  rw [hkd]
  change (readRow B.word_size k 0 (fun i => .ok i) (data.map some) _ >>= _) = _
  rw [e, ok_bind]
  simp only [hc.2 hlen, if_true]
  have : (fec B).encode (fresh mem' m) (props.map Properties.clear) 0 ws = .error .ub :=
    encode_short h hG.hn hF (by rw [hws']; simp [fresh]) (by simpa [fresh] using hkm)
  rw [this]
  rfl

end RsFnt
end Quad
