import Verif.Model.FecBuf

/-!
# Model of the counters of fec_base.h

The functions of `FecCode<T>` that code streams and blocks measure each call of `encode` and `decode` and add to public counters.  Here are
their loops with the counters: those of Model/Fec.lean and Model/FecBuf.lean, which leave them out, with one more component.
The clocks are an argument: `clk i` has what they show around the `i`-th operation of the call.
-/

namespace Quad

/-- what the clocks show around an operation: `start`, `end` and `t2` (fec_base.h:444-448); words of 64 bits -/
structure Timing where
  start : Nat
  stop : Nat
  usec : Nat

/-- the counters of one direction (fec_base.h:108-114) -/
structure Counters where
  cycles : Nat := 0
  ops : Nat := 0
  usec : Nat := 0
  deriving DecidableEq, Repr

/-- the counters of an object (fec_base.h:108-114) -/
structure Stats where
  enc : Counters := {}
  dec : Counters := {}
  deriving DecidableEq, Repr

/-- `reset_stats_enc` (fec_base.h:227-232) -/
def Stats.reset_enc (st : Stats) : Stats := { st with enc := {} }

/-- `reset_stats_dec` (fec_base.h:234-239) -/
def Stats.reset_dec (st : Stats) : Stats := { st with dec := {} }

/-- an operation is counted, its cycles divided by `d` (fec_base.h:450-452, 529-531, 665-667, 1031-1033, 1134-1136, 1302-1304) -/
def Counters.add (d : Nat) (t : Timing) (c : Counters) : Res Counters :=
  if d = 0 then ub else ok
    { usec := wrap 64 (c.usec + t.usec)
      cycles := wrap 64 (c.cycles + wrap 64 (t.stop + (2 ^ 64 - t.start)) / d)
      ops := wrap 64 (c.ops + 1) }

/-- the clocks from the next operation on -/
def later (clk : Nat → Timing) : Nat → Timing := fun i => clk (i + 1)

/-! ## words -/

/-- the loop of `encode_streams_horizontal` (fec_base.h:431-459) -/
def Fec.encLoopS {Γ : Type} (E : Fec Γ) : Nat → Array (Option (List Nat)) → Array (List Nat) → Array Properties → Array Nat →
    Array Nat → Nat → (Nat → Timing) → Counters → Res ((Array (List Nat) × Array Properties) × Counters)
  | 0, _, _, _, _, _, _, _, _ => .error .diverges
  | fuel + 1, ins, outs, props, words, output, offset, clk, c => do
    let words := Array.replicate words.size 0
    let (ins, words, cont) ← readRow E.base.word_size E.base.n_data 0 (fun i => .ok i) ins words
    if cont then do
      let (output, props) ← E.encode output props offset words
      let c ← c.add E.base.word_size (clk 0)
      let outs ← forN E.base.n_outputs outs (fun i outs => do
        let v ← rd output i
        let s ← rd outs i
        let s ← writew E.base.word_size v s
        wr outs i s)
      encLoopS E fuel ins outs props words output (offset + 1) (later clk) c
    else pure ((outs, props), c)

/-- `encode_streams_horizontal` (fec_base.h:408-460) -/
def Fec.encode_streams_horizontalS {Γ : Type} (E : Fec Γ) (input_data : Array (List Nat)) (outs : Array (List Nat))
    (props : Array Properties) (mem : Nat → Nat) (clk : Nat → Timing) (st : Stats) :
    Res ((Array (List Nat) × Array Properties) × Stats) := do
  cassert (decide (input_data.size = E.base.n_data))
  cassert (decide (outs.size = E.base.n_outputs))
  cassert (decide (props.size = E.base.n_outputs))
  let props := props.map Properties.clear
  let st := st.reset_enc
  let (r, c) ← E.encLoopS ((gt input_data 0).length + 2) (input_data.map some) outs props (fresh mem E.base.n_data)
    (fresh mem E.get_n_outputs) 0 clk st.enc
  pure (r, { st with enc := c })

/-- the loop of `decode_streams_horizontal` (fec_base.h:628-676) -/
def Fec.decLoopS {Γ : Type} (E : Fec Γ) (ids apar : Array Nat) (nd : Nat) : Nat → Array (Option (List Nat)) →
    Array (Option (List Nat)) → Array (Option (List Nat)) → Array Properties → Γ → Array Nat → Array Nat → Nat → (Nat → Timing) →
    Counters → Res (Array (Option (List Nat)) × Counters)
  | 0, _, _, _, _, _, _, _, _, _, _ => .error .diverges
  | fuel + 1, datas, pars, outs, props, C, words, output, offset, clk, c => do
    let words := Array.replicate words.size 0
    let (datas, words, cont) ←
      if E.base.sys then readRow E.base.word_size nd 0 (fun i => rd ids i) datas words
      else pure (datas, words, true)
    if cont then do
      let (pars, words, cont) ←
        readRow E.base.word_size (E.base.n_data - nd) nd (fun i => rd apar i) pars words
      if cont then do
        let (C, output) ← E.decode C output props offset words
        let c ← c.add E.base.word_size (clk 0)
        let outs ← writeData E.base.word_size E.base.n_data output outs
        decLoopS E ids apar nd fuel datas pars outs props C words output (offset + 1) (later clk) c
      else pure (outs, c)
    else pure (outs, c)

/-- `decode_streams_horizontal` (fec_base.h:559-680): the counters are reset before the fragments are counted (fec_base.h:580) -/
def Fec.decode_streams_horizontalS {Γ : Type} (E : Fec Γ) (datas pars : Array (Option (List Nat))) (props : Array Properties)
    (outs : Array (Option (List Nat))) (mem : Nat → Nat) (clk : Nat → Timing) (st : Stats) :
    Res ((Bool × Array (Option (List Nat))) × Stats) := do
  let B := E.base
  if B.sys then cassert (decide (datas.size = B.n_data)) else pure ()
  cassert (decide (pars.size = B.n_outputs))
  cassert (decide (props.size = B.n_outputs))
  cassert (decide (outs.size = B.n_data))
  let st := st.reset_dec
  let sel ← B.selectFragments (datas.map Option.isSome) (pars.map Option.isSome) mem
  match sel with
  | .allData => pure ((true, outs), st)
  | .tooFew => pure ((false, outs), st)
  | .use ids apar nd => do
    let n_words := if B.sys then B.n_data else B.code_len
    let (C, props) ← E.init_context_dec ids props mem
    let (outs, c) ← E.decLoopS ids apar nd (maxLen datas + maxLen pars + 2) datas pars outs props C
      (fresh mem n_words) (fresh mem B.n_data) 0 clk st.dec
    pure ((true, outs), { st with dec := c })

/-! ## packets -/

/-- the loop of `encode_streams_vertical` (fec_base.h:502-541).  The operation is counted between `encode` and `unpack`; here after both. -/
def FecV.encLoopS (E : FecV) (words output : Bufs) : Nat → Array (Option (List Nat)) → Array (Option (List Nat)) →
    Nat → Nat → EncSt → (Nat → Timing) → Counters → Res ((Array (Option (List Nat)) × EncSt) × Counters)
  | 0, _, _, _, _, _, _, _ => .error .diverges
  | fuel + 1, ins, outs, read_bytes, offset, s, clk, c => do
    let (ins, wc, read_bytes, cont) ← readPkts E.buf_size E.base.n_data 0 (fun i => .ok i)
      (ins, s.words_char, read_bytes, true)
    if read_bytes = 0 then pure ((outs, { s with words_char := wc }), c)
    else do
      let s ← E.encStep words output offset { s with words_char := wc }
      let c ← c.add E.buf_size (clk 0)
      let outs ← writePkts E.base.n_outputs read_bytes s.out_char outs
      if cont then E.encLoopS words output fuel ins outs read_bytes (offset + E.base.pkt_size) s (later clk) c
      else pure ((outs, s), c)

/-- `encode_streams_vertical` (fec_base.h:462-542) -/
def FecV.encode_streams_verticalS (E : FecV) (enc : CtxB) (input_data : Array (List Nat)) (outs : Array (List Nat))
    (props : Array Properties) (junk : Nat → Nat → Nat) (H : Heap) (clk : Nat → Timing) (st : Stats) :
    Res ((Array (Option (List Nat)) × Array Properties × CtxB × Heap) × Stats) := do
  cassert (decide (input_data.size = E.base.n_data))
  cassert (decide (outs.size = E.base.n_outputs))
  cassert (decide (props.size = E.base.n_outputs))
  let props := props.map Properties.clear
  let (H, words) := Bufs.full junk H E.base.n_data E.base.pkt_size
  let (H, output) := Bufs.full junk H E.get_n_outputs E.base.pkt_size
  let st := st.reset_enc
  let ((outs, s), c) ← E.encLoopS words output ((gt input_data 0).length + 2) (input_data.map some) (outs.map some) E.buf_size 0
    ⟨enc, H, freshChars junk E.base.n_data E.buf_size, freshChars junk E.get_n_outputs E.buf_size, props⟩ clk st.enc
  pure ((outs, s.props, s.enc, s.H), { st with enc := c })

/-- the loop of `decode_streams_vertical` (fec_base.h:985-1046) -/
def FecV.decLoopS (E : FecV) (words output : Bufs) (ids apar : Array Nat) (nd : Nat) (props : Array Properties) :
    Nat → Array (Option (List Nat)) → Array (Option (List Nat)) → Array (Option (List Nat)) → Nat → Nat → DecSt → (Nat → Timing) →
    Counters → Res ((Array (Option (List Nat)) × Heap) × Counters)
  | 0, _, _, _, _, _, _, _, _ => .error .diverges
  | fuel + 1, datas, pars, outs, read_bytes, offset, s, clk, c => do
    let (datas, wc, read_bytes, cont) ←
      (if E.base.sys then
        readPkts E.buf_size nd 0 (fun i => rd ids i) (datas, s.words_char, read_bytes, true)
      else pure (datas, s.words_char, read_bytes, true))
    let (pars, wc, read_bytes, cont) ←
      readPkts E.buf_size (E.base.n_data - nd) nd (fun i => rd apar i) (pars, wc, read_bytes, cont)
    if read_bytes = 0 then pure ((outs, s.H), c)
    else do
      let s ← E.decStep words output props offset { s with words_char := wc }
      let c ← c.add E.base.word_size (clk 0)
      let outs ← writePkts E.base.n_data read_bytes s.out_char outs
      if cont then
        E.decLoopS words output ids apar nd props fuel datas pars outs read_bytes (offset + E.base.pkt_size) s (later clk) c
      else pure ((outs, s.H), c)

/-- `decode_streams_vertical` (fec_base.h:897-1049): the counters are reset after the fragments were counted (fec_base.h:979) -/
def FecV.decode_streams_verticalS (E : FecV) (datas pars : Array (Option (List Nat))) (props : Array Properties)
    (outs : Array (Option (List Nat))) (mem : Nat → Nat) (junk : Nat → Nat → Nat) (H : Heap) (clk : Nat → Timing) (st : Stats) :
    Res ((Bool × Array (Option (List Nat)) × Heap) × Stats) := do
  let B := E.base
  if B.sys then cassert (decide (datas.size = B.n_data)) else pure ()
  cassert (decide (pars.size = B.n_outputs))
  cassert (decide (props.size = B.n_outputs))
  cassert (decide (outs.size = B.n_data))
  let sel ← B.selectFragments (datas.map Option.isSome) (pars.map Option.isSome) mem
  match sel with
  | .allData => pure ((true, outs, H), st)
  | .tooFew => pure ((false, outs, H), st)
  | .use ids apar nd => do
    let ids := (ids.toList.mergeSort (fun x y => decide (x ≤ y))).toArray
    let (H, words) := Bufs.full junk H B.n_data B.pkt_size
    let (H, output) := Bufs.full junk H B.n_data B.pkt_size
    let (H, C, props) ← E.init_context_dec ids props B.pkt_size output mem junk H
    let st := st.reset_dec
    let ((outs, H), c) ← E.decLoopS words output ids apar nd props (maxLen datas + maxLen pars + 2) datas pars outs E.buf_size 0
      ⟨C, H, freshChars junk B.n_data E.buf_size, freshChars junk B.n_data E.buf_size⟩ clk st.dec
    pure ((true, outs, H), { st with dec := c })

/-! ## blocks -/

/-- the loop of `encode_blocks_vertical` (fec_base.h:1094-1149) -/
def FecV.encBlockLoopS (E : FecV) (words output : Bufs) (datas : Array (Option (Array Nat))) (wanted : Array Bool)
    (block_size : Nat) : Nat → Array (Option (Array Nat)) → Nat → EncSt → (Nat → Timing) → Counters →
    Res ((Array (Option (Array Nat)) × EncSt) × Counters)
  | 0, _, _, _, _, _ => .error .diverges
  | fuel + 1, pars, offset, s, clk, c =>
    if offset < block_size then do
      let copy_size := min E.base.pkt_size (block_size - offset)
      let w := E.base.word_size
      let wc ← readBlocks E.base.n_data 0 (fun i => .ok i) datas (offset * w) (copy_size * w) s.words_char
      let wc := if copy_size < E.base.pkt_size then wc.map (fun c => zeroTail c (copy_size * w)) else wc
      let s ← E.encStep words output offset { s with words_char := wc }
      let c ← c.add (copy_size * w) (clk 0)
      let pars ← writeBlocks E.base.n_outputs wanted (offset * w) (copy_size * w) s.out_char pars
      encBlockLoopS E words output datas wanted block_size fuel pars (offset + E.base.pkt_size) s (later clk) c
    else pure ((pars, s), c)

/-- `encode_blocks_vertical` (fec_base.h:1065-1151) -/
def FecV.encode_blocks_verticalS (E : FecV) (enc : CtxB) (datas pars : Array (Option (Array Nat))) (props : Array Properties)
    (wanted : Array Bool) (block_size_bytes : Nat) (junk : Nat → Nat → Nat) (H : Heap) (clk : Nat → Timing) (st : Stats) :
    Res ((Array (Option (Array Nat)) × Array Properties × CtxB × Heap) × Stats) := do
  cassert (decide (datas.size = E.base.n_data))
  cassert (decide (pars.size = E.base.n_outputs))
  cassert (decide (props.size = E.base.n_outputs))
  let props := props.map Properties.clear
  let block_size := block_size_bytes / E.base.word_size
  let (H, words) := Bufs.full junk H E.base.n_data E.base.pkt_size
  let (H, output) := Bufs.full junk H E.get_n_outputs E.base.pkt_size
  let st := st.reset_enc
  let ((pars, s), c) ← E.encBlockLoopS words output datas wanted block_size (block_size + 1) pars 0
    ⟨enc, H, freshChars junk E.base.n_data E.buf_size, freshChars junk E.get_n_outputs E.buf_size, props⟩ clk st.enc
  pure ((pars, s.props, s.enc, s.H), { st with enc := c })

/-- the loop of `decode_blocks_vertical` (fec_base.h:1250-1317) -/
def FecV.decBlockLoopS (E : FecV) (words output : Bufs) (ids apar : Array Nat) (nd : Nat)
    (pars : Array (Option (Array Nat))) (props : Array Properties) (wanted : Array Bool) (block_size : Nat) :
    Nat → Array (Option (Array Nat)) → Nat → DecSt → (Nat → Timing) → Counters → Res ((Array (Option (Array Nat)) × Heap) × Counters)
  | 0, _, _, _, _, _ => .error .diverges
  | fuel + 1, datas, offset, s, clk, c =>
    if offset < block_size then do
      let copy_size := min E.base.pkt_size (block_size - offset)
      let w := E.base.word_size
      let wc ← (if E.base.sys then
          readBlocks nd 0 (fun i => rd ids i) datas (offset * w) (copy_size * w) s.words_char
        else pure s.words_char)
      let wc ← readBlocks (E.base.n_data - nd) nd (fun i => rd apar i) pars (offset * w) (copy_size * w) wc
      let wc := if copy_size < E.base.pkt_size then wc.map (fun c => zeroTail c (copy_size * w)) else wc
      let s ← E.decStep words output props offset { s with words_char := wc }
      let c ← c.add w (clk 0)
      let datas ← writeBlocks E.base.n_data wanted (offset * w) (copy_size * w) s.out_char datas
      decBlockLoopS E words output ids apar nd pars props wanted block_size fuel datas (offset + E.base.pkt_size) s (later clk) c
    else pure ((datas, s.H), c)

/-- `decode_blocks_vertical` (fec_base.h:1176-1321): the counters are reset after the fragments were counted (fec_base.h:1259) -/
def FecV.decode_blocks_verticalS (E : FecV) (datas pars : Array (Option (Array Nat))) (props : Array Properties)
    (missing wanted : Array Bool) (block_size_bytes : Nat) (mem : Nat → Nat) (junk : Nat → Nat → Nat) (H : Heap) (clk : Nat → Timing)
    (st : Stats) : Res ((Bool × Array (Option (Array Nat)) × Heap) × Stats) := do
  let B := E.base
  let block_size := block_size_bytes / B.word_size
  if B.sys then cassert (decide (datas.size = B.n_data)) else pure ()
  cassert (decide (pars.size = B.n_outputs))
  cassert (decide (props.size = B.n_outputs))
  let pres := missing.map (fun b => !b)
  let sel ← B.selectFragments pres (if B.sys then pres.extract B.n_data pres.size else pres) mem
  match sel with
  | .allData => pure ((true, datas, H), st)
  | .tooFew => pure ((false, datas, H), st)
  | .use ids apar nd => do
    let ids := (ids.toList.mergeSort (fun x y => decide (x ≤ y))).toArray
    let (H, words) := Bufs.full junk H B.n_data B.pkt_size
    let (H, output) := Bufs.full junk H B.n_data B.pkt_size
    let (H, C, props) ← E.init_context_dec ids props B.pkt_size output mem junk H
    let st := st.reset_dec
    let ((datas, H), c) ← E.decBlockLoopS words output ids apar nd pars props wanted block_size (block_size + 1) datas 0
      ⟨C, H, freshChars junk B.n_data E.buf_size, freshChars junk B.n_data E.buf_size⟩ clk st.dec
    pure ((true, datas, H), { st with dec := c })

/-- what the file program prints for one direction (ec_driver.cpp:289-301) -/
def Counters.printed (c : Counters) : Nat := if c.ops ≠ 0 then c.cycles / c.ops else 0

end Quad
