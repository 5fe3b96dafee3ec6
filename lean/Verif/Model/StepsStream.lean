import Verif.Model.StepsDecode
/- Compressing a stream with a step counter: `encode_stream` (lib/src/stream/mod.rs), the run-length stage, the checksum
and the bit writer in the monad of Model/StepsBlock.lean. The work of all threads is added up. A call of `read` or
`write` is one step; a byte that is read counts twice (it is stored, and the buffer may move when it grows). -/
namespace Ribzip2
open Cost

/-- `read.by_ref().take(limit).read_to_end(&mut buf_current)`, lib/src/stream/mod.rs:136-139, counted. -/
def readToEndC (failTail : Bool) : List REvent → Nat → Cost (List UInt8 × List REvent × Bool)
  | events, 0 => pure ([], events, true)
  | [], _ + 1 => do
    tick 1
    pure ([], [], !failTail)
  | REvent.intr :: es, limit + 1 => do
    tick 1
    readToEndC failTail es (limit + 1)
  | REvent.fail :: es, _ + 1 => do
    tick 1
    pure ([], es, false)
  | REvent.data bs :: es, limit + 1 => do
    tick 1
    if bs.isEmpty then pure ([], es, true)
    else if bs.length ≤ limit + 1 then do
      tick (2 * bs.length)
      let (more, rest, ok) ← readToEndC failTail es (limit + 1 - bs.length)
      pure (bs ++ more, rest, ok)
    else do
      tick (2 * (limit + 1))
      pure (bs.take (limit + 1), REvent.data (bs.drop (limit + 1)) :: es, true)
termination_by structural events => events

/-- The loop of lib/src/block/rle.rs:11-30, counted: the bytes pushed are counted. -/
def rleLoopC : List UInt8 → RleResult → Cost RleResult
  | [], s => pure s
  | current :: rest, s => do
    let s' := rleStep s current
    tick (1 + (s'.data.length - s.data.length))
    rleLoopC rest s'

/-- lib/src/block/rle.rs:7-37 `rle`, counted. -/
def rleC (input : List UInt8) (initCounter : Nat) (initLast : Option UInt8) : Cost RleResult :=
  rleLoopC input ⟨[], initCounter, initLast⟩

/-- lib/src/block/rle.rs:53-70 `rle_augment`, counted: the data is copied and at most 5 bytes are pushed. -/
def rleAugmentC (input : List UInt8) (counter : Nat) (last : Option UInt8) : Cost (List UInt8) := do
  tick (input.length + 5)
  pure (rleAugment input counter last)

/-- The loop of lib/src/stream/mod.rs:132-160, counted: `append` moves the elements. -/
def fillLoopC (failTail : Bool) : Nat → FillState → Cost (FillState × Bool)
  | 0, _ => lift Res.div
  | fuel + 1, s => do
    tick 1
    if s.total < rleLimit then do
      let room ← lift (subU rleLimit s.rleData.length)
      let toTake := room * 4 / 5
      let x ← readToEndC failTail s.events toTake
      match x with
      | (bufCurrent, events, true) =>
        if bufCurrent.length = 0 then pure ({ s with events := events }, true)
        else do
          let r ← rleC bufCurrent s.count s.last
          tick (r.data.length + bufCurrent.length)
          let total := rleTotalSize (s.rleData.length + r.data.length) r.counter r.lastByte
          fillLoopC failTail fuel
            ⟨s.buf ++ bufCurrent, s.rleData ++ r.data, total, r.counter, r.lastByte, events⟩
      | (_, events, false) => pure ({ s with events := events }, false)
    else pure (s, false)

/-- lib/src/stream/mod.rs:127-167, counted. -/
def nextBlockC (failTail : Bool) (events : List REvent) : Cost (Option Work × List REvent × Bool) := do
  let (s, fin) ← fillLoopC failTail (eventsSize events + 2) ⟨[], [], 0, 0, none, events⟩
  if s.buf.length = 0 then pure (none, s.events, fin)
  else do
    let rleTotal ← rleAugmentC s.rleData s.count s.last
    let crc ← crc32C s.buf
    pure (some ⟨crc, rleTotal⟩, s.events, fin)

/-- The loop of lib/src/stream/mod.rs:126-169, counted. -/
def sendLoopC (failTail : Bool) : Nat → List REvent → Bool → Cost (List Work × List REvent × Bool)
  | 0, events, fin => pure ([], events, fin)
  | k + 1, events, fin => do
    tick 1
    let (w, events, f) ← nextBlockC failTail events
    match w with
    | none => pure ([], events, fin || f)
    | some work => do
      let (more, events, fin) ← sendLoopC failTail k events (fin || f)
      pure (work :: more, events, fin)

/-- lib/src/bitwise/bitwriter.rs:44-53 `write_bits`: the bits are copied and moved, each byte is one call of `write` and
8 steps of `convert_to_number`, and what remains is copied. -/
def writeBitsSteps (bw : BitWriter) (bits : List Bit) : Nat :=
  2 * bits.length + 10 * ((bw.pending.length + bits.length) / 8) + (bw.pending.length + bits.length) % 8

/-- lib/src/stream/mod.rs:89-95 `flush_work_buffer`, with the work of the worker (70-79), counted. -/
def flushOneC (gen : Work → Cost (List Bit)) (work : Work) (bw : BitWriter) (crc : BitVec 32) :
    BitWriter × Res (BitVec 32 × Nat) :=
  match (gen work).run with
  | Res.ok (bits, k) =>
    match bw.writeBits bits with
    | (bw', Res.ok _) => (bw', Res.ok (combineCrc crc work.crc, 1 + k + writeBitsSteps bw bits))
    | (bw', _) => (bw', Res.panic)
  | Res.div => (bw, Res.div)
  | _ => (bw, Res.panic)

/-- The loop of lib/src/stream/mod.rs:171-175 over the pending workers, counted; `steps` is the number of steps so
far. -/
def flushLoopC (gen : Work → Cost (List Bit)) :
    List Work → BitWriter → BitVec 32 → Nat → BitWriter × Res (BitVec 32 × Nat)
  | [], bw, crc, steps => (bw, Res.ok (crc, steps))
  | work :: rest, bw, crc, steps =>
    match flushOneC gen work bw crc with
    | (bw, Res.ok (crc, k)) => flushLoopC gen rest bw crc (steps + k)
    | (bw, r) => (bw, r)

/-- The main loop of lib/src/stream/mod.rs:121-176, counted: each round looks at every worker once more (171-172). -/
def mainLoopC (gen : Work → Cost (List Bit)) (failTail : Bool) (numThreads : Nat) :
    Nat → List REvent → Bool → BitWriter → BitVec 32 → Nat → BitWriter × Res (BitVec 32 × Nat)
  | 0, _, _, bw, _, _ => (bw, Res.div)
  | fuel + 1, events, fin, bw, crc, steps =>
    if fin then (bw, Res.ok (crc, steps + 1))
    else
      match (sendLoopC failTail numThreads events fin).run with
      | Res.ok ((works, events, fin), k) =>
        match flushLoopC gen works bw crc (steps + 1 + k + numThreads) with
        | (bw, Res.ok (crc, steps)) => mainLoopC gen failTail numThreads fuel events fin bw crc steps
        | (bw, r) => (bw, r)
      | Res.err => (bw, Res.err)
      | Res.panic => (bw, Res.panic)
      | Res.div => (bw, Res.div)

/-- lib/src/stream/mod.rs:105-180 `encode_stream`, counted: the workers are spawned (115-117); the header (119) and the
footer (178) are made, moved and written; `finalize` (179) makes, moves and converts at most 8 bits and writes a byte. -/
def encodeStreamC (dist : Distance) (r : Reader) (w : Writer) (numThreads : Nat) (strategy : Strategy) :
    Writer × Res (Unit × Nat) :=
  let gen := fun work => generateBlockDataC dist strategy work.crc work.rleTotal
  let bw0 := BitWriter.fromWriter w
  let result :=
    andThen (match bw0.writeBits fileHeader with | (bw, r) => (bw, r.unwrap)) fun bw _ =>
    andThen (mainLoopC gen r.failTail numThreads (eventsSize r.events + r.events.length + 2) r.events false bw 0
      (numThreads + (2 * fileHeader.length + writeBitsSteps bw0 fileHeader))) fun bw p =>
    andThen (match bw.writeBits (streamFooter p.1) with | (bw', r) => (bw', r.unwrap)) fun bw' _ =>
    match bw'.finalize with
    | (bw'', r) => (bw'', r.unwrap >>= fun _ =>
      Res.ok ((), p.2 + (3 * (streamFooter p.1).length + writeBitsSteps bw (streamFooter p.1)) + 24))
  (result.1.w, result.2)

end Ribzip2
