import Verif.Model.FecBuf

/-!
# Several encodings and decodings at once on one code object

`FecCode<T>` gives its users `encode`, `init_context_dec` and `decode` for one packet
(fec_base.h:138-142, 166-171, 195-199).  A program may keep any number of encodings and decodings going on one object
and advance them in any order.  This file models such a program: each of its steps is one of the library's own packet steps.
-/

namespace Quad.Session

/-- what an encoding or a decoding works on: the byte streams of the data, or those of `n_data` fragments with their numbers and the
properties of the output fragments -/
inductive Job
  | enc (data : Array (List Nat))
  | dec (ids : Array Nat) (frags : Array (List Nat)) (props : Array Properties)
deriving Inhabited

/-- the streams it reads -/
def Job.streams : Job → Array (List Nat)
  | .enc data => data
  | .dec _ frags _ => frags

/-- an encoding or decoding under way: its buffers (fec_base.h:486-495, 960-974), its context if it decodes (fec_base.h:976), its properties
and the number of words done -/
structure Running where
  job : Job
  words : Bufs
  output : Bufs
  ctx : Option CtxB
  props : Array Properties
  offset : Nat
deriving Inhabited

/-- a step of the program: begin a new encoding or decoding, or do the next packet of number `i` -/
inductive Act
  | start (job : Job) (mem : Nat → Nat) (junk : Nat → Nat → Nat)
  | next (i : Nat) (junk : Nat → Nat → Nat)

/-- the object's context for encoding, the heap, and what is under way -/
structure State where
  enc : CtxB
  H : Heap
  run : Array Running

/-- what a packet gave: the bytes of each output and, when encoding, the properties so far -/
structure Event where
  i : Nat
  out : Array (Array Nat)
  props : Array Properties

/-- beginning: the allocations at the start of `encode_streams_vertical` (fec_base.h:476-495), or those of `decode_streams_vertical` and
`init_context_dec` (fec_base.h:960-977) -/
def start (E : FecV) (job : Job) (mem : Nat → Nat) (junk : Nat → Nat → Nat) (st : State) : Res State := do
  cassert (decide (job.streams.size = E.base.n_data))
  let (H, words) := Bufs.full junk st.H E.base.n_data E.base.pkt_size
  match job with
  | .enc _ => do
    let (H, output) := Bufs.full junk H E.get_n_outputs E.base.pkt_size
    pure { st with H := H, run := st.run.push ⟨job, words, output, none, Array.replicate E.base.n_outputs .empty, 0⟩ }
  | .dec ids _ props => do
    let (H, output) := Bufs.full junk H E.base.n_data E.base.pkt_size
    let (H, C, props) ← E.init_context_dec ids props E.base.pkt_size output mem junk H
    pure { st with H := H, run := st.run.push ⟨job, words, output, some C, props, 0⟩ }

/-- the packet each stream is at, completed with zeros (`read_pkt`, fec_base.h:386-390, 503-513) -/
def packets (E : FecV) (r : Running) : Array (Array Nat) :=
  Array.ofFn (fun j : Fin E.base.n_data => (readPkt E.buf_size ((gt r.job.streams j).drop (r.offset * E.base.word_size))).1)

/-- the next packet: one turn of the loop of `encode_streams_vertical` (fec_base.h:502-541) or of `decode_streams_vertical`
(fec_base.h:985-1046) -/
def next (E : FecV) (i : Nat) (junk : Nat → Nat → Nat) (st : State) : Res (State × Event) := do
  let r ← rd st.run i
  match r.ctx with
  | none => do
    let s ← E.encStep r.words r.output r.offset
      ⟨st.enc, st.H, packets E r, freshChars junk E.get_n_outputs E.buf_size, r.props⟩
    let run ← wr st.run i { r with props := s.props, offset := r.offset + E.base.pkt_size }
    pure (⟨s.enc, s.H, run⟩, ⟨i, s.out_char.extract 0 E.base.n_outputs, s.props⟩)
  | some C => do
    let s ← E.decStep r.words r.output r.props r.offset ⟨C, st.H, packets E r, freshChars junk E.base.n_data E.buf_size⟩
    let run ← wr st.run i { r with ctx := some s.C, offset := r.offset + E.base.pkt_size }
    pure (⟨st.enc, s.H, run⟩, ⟨i, s.out_char, #[]⟩)

/-- a program: the state at the end and all that the packets gave -/
def run (E : FecV) : List Act → State → Res (State × List Event)
  | [], st => pure (st, [])
  | .start job mem junk :: l, st => do
    let st ← start E job mem junk st
    run E l st
  | .next i junk :: l, st => do
    let (st, e) ← next E i junk st
    let (st, es) ← run E l st
    pure (st, e :: es)

end Quad.Session
