import Verif.Model.Block
/- Model of lib/src/stream/mod.rs. -/
namespace Ribzip2

/-- lib/src/stream/mod.rs:27-42 `stream_footer`. -/
def streamFooter (crc : BitVec 32) : List Bit :=
  [0x17, 0x72, 0x45, 0x38, 0x50, 0x90].flatMap convertToCodePadToByte
  ++ (crcAsBytes crc).flatMap convertToCodePadToByte

/-- lib/src/stream/mod.rs:44-51 `file_header`: `BZh9`. -/
def fileHeader : List Bit :=
  convertToCodePadToByte 0x42 ++ convertToCodePadToByte 0x5a
  ++ convertToCodePadToByte 0x68 ++ convertToCodePadToByte 0x39

/-- lib/src/stream/mod.rs:112 `RLE_LIMIT`. -/
def rleLimit : Nat := 900000

/-- `read.by_ref().take(limit).read_to_end(&mut buf_current)` (stream/mod.rs:136-139, std
contract): read until the limit, end of file (`Ok(0)`) or an error; `Interrupted` is retried.
Returns the bytes appended to the buffer, the remaining script, and whether the call was `Ok`. -/
def readToEnd (failTail : Bool) : List REvent → Nat → List UInt8 × List REvent × Bool
  | events, 0 => ([], events, true)
  | [], _ + 1 => ([], [], !failTail)
  | REvent.intr :: es, limit + 1 => readToEnd failTail es (limit + 1)
  | REvent.fail :: es, _ + 1 => ([], es, false)
  | REvent.data bs :: es, limit + 1 =>
    if bs.isEmpty then ([], es, true)
    else if bs.length ≤ limit + 1 then
      let (more, rest, ok) := readToEnd failTail es (limit + 1 - bs.length)
      (bs ++ more, rest, ok)
    else (bs.take (limit + 1), REvent.data (bs.drop (limit + 1)) :: es, true)
termination_by structural events => events

/-- Local variables of the block loop, lib/src/stream/mod.rs:127-131, and the reader. -/
structure FillState where
  buf : List UInt8
  rleData : List UInt8
  total : Nat
  count : Nat
  last : Option UInt8
  events : List REvent
  deriving Repr, DecidableEq

/-- The loop of lib/src/stream/mod.rs:132-160; returns the final variables and the value given to
`finalize` (only ever set to `true`).  `fuel` bounds the number of refills.  `RLE_LIMIT -
rle_data.len()` panics on underflow. -/
def fillLoop (failTail : Bool) : Nat → FillState → Res (FillState × Bool)
  | 0, _ => Res.div
  | fuel + 1, s =>
    if s.total < rleLimit then do
      let room ← subU rleLimit s.rleData.length
      let toTake := room * 4 / 5
      match readToEnd failTail s.events toTake with
      | (bufCurrent, events, true) =>
        if bufCurrent.length = 0 then pure ({ s with events := events }, true)
        else
          let r := rle bufCurrent s.count s.last
          let total := rleTotalSize (s.rleData.length + r.data.length) r.counter r.lastByte
          fillLoop failTail fuel
            ⟨s.buf ++ bufCurrent, s.rleData ++ r.data, total, r.counter, r.lastByte, events⟩
      | (_, events, false) => pure ({ s with events := events }, false)
    else Res.ok (s, false)

/-- A unit of work sent to a worker, lib/src/stream/mod.rs:53: checksum and run-length encoded
data. -/
structure Work where
  crc : BitVec 32
  rleTotal : List UInt8
  deriving Repr, DecidableEq

/-- lib/src/stream/mod.rs:127-167: read one block.  `none` when nothing was read (line 162). -/
def nextBlock (failTail : Bool) (events : List REvent) : Res (Option Work × List REvent × Bool) := do
  let (s, fin) ← fillLoop failTail (eventsSize events + 2) ⟨[], [], 0, 0, none, events⟩
  if s.buf.length = 0 then pure (none, s.events, fin)
  else pure (some ⟨crc32 s.buf, rleAugment s.rleData s.count s.last⟩, s.events, fin)

/-- The loop of lib/src/stream/mod.rs:126-169 over (the remaining `k`) workers: the works sent, the
remaining script and `finalize`. -/
def sendLoop (failTail : Bool) : Nat → List REvent → Bool → Res (List Work × List REvent × Bool)
  | 0, events, fin => Res.ok ([], events, fin)
  | k + 1, events, fin => do
    let (w, events, f) ← nextBlock failTail events
    match w with
    | none => pure ([], events, fin || f)
    | some work => do
      let (more, events, fin) ← sendLoop failTail k events (fin || f)
      pure (work :: more, events, fin)

/-- lib/src/stream/mod.rs:89-95 `flush_work_buffer`, with the result received from the worker
(`gen` is what the worker computes, lines 70-79; a panicking worker drops its sender, so that the
`recv().unwrap()` of line 90 panics too). -/
def flushOne (gen : Work → Res (List Bit)) (work : Work) (bw : BitWriter) (crc : BitVec 32) :
    BitWriter × Res (BitVec 32) :=
  match gen work with
  | Res.ok bits =>
    match bw.writeBits bits with
    | (bw, Res.ok _) => (bw, Res.ok (combineCrc crc work.crc))
    | (bw, _) => (bw, Res.panic)
  | Res.div => (bw, Res.div)
  | _ => (bw, Res.panic)

/-- The loop of lib/src/stream/mod.rs:171-175 over the pending workers. -/
def flushLoop (gen : Work → Res (List Bit)) :
    List Work → BitWriter → BitVec 32 → BitWriter × Res (BitVec 32)
  | [], bw, crc => (bw, Res.ok crc)
  | work :: rest, bw, crc =>
    match flushOne gen work bw crc with
    | (bw, Res.ok crc) => flushLoop gen rest bw crc
    | (bw, r) => (bw, r)

/-- The main loop of lib/src/stream/mod.rs:121-176.  `fuel` bounds the number of rounds; running out
of it is non-termination (`div`). -/
def mainLoop (gen : Work → Res (List Bit)) (failTail : Bool) (numThreads : Nat) :
    Nat → List REvent → Bool → BitWriter → BitVec 32 → BitWriter × Res (BitVec 32)
  | 0, _, _, bw, _ => (bw, Res.div)
  | fuel + 1, events, fin, bw, crc =>
    if fin then (bw, Res.ok crc)
    else
      match sendLoop failTail numThreads events fin with
      | Res.ok (works, events, fin) =>
        match flushLoop gen works bw crc with
        | (bw, Res.ok crc) => mainLoop gen failTail numThreads fuel events fin bw crc
        | (bw, r) => (bw, r)
      | Res.err => (bw, Res.err)
      | Res.panic => (bw, Res.panic)
      | Res.div => (bw, Res.div)

/-- Sequencing for functions that return the writer together with an outcome. -/
def andThen {α β : Type} (x : BitWriter × Res α) (f : BitWriter → α → BitWriter × Res β) :
    BitWriter × Res β :=
  match x with
  | (bw, Res.ok a) => f bw a
  | (bw, Res.err) => (bw, Res.err)
  | (bw, Res.panic) => (bw, Res.panic)
  | (bw, Res.div) => (bw, Res.div)

/-- lib/src/stream/mod.rs:105-180 `encode_stream`, with the worker's computation run when its result
is received (the interleaving of the threads is modelled in `Verif.Model.Threads`).  `fuel` bounds
the number of rounds of the main loop. -/
def encodeStreamFuel (fuel : Nat) (dist : Distance) (r : Reader) (w : Writer) (numThreads : Nat)
    (strategy : Strategy) : Writer × Res Unit :=
  let gen := fun work => generateBlockData dist strategy work.crc work.rleTotal
  let result :=
    andThen
      (match (BitWriter.fromWriter w).writeBits fileHeader with | (bw, r) => (bw, r.unwrap))
      fun bw _ =>
    andThen (mainLoop gen r.failTail numThreads fuel r.events false bw 0) fun bw crc =>
    andThen (match bw.writeBits (streamFooter crc) with | (bw, r) => (bw, r.unwrap)) fun bw _ =>
    match bw.finalize with | (bw, r) => (bw, r.unwrap)
  (result.1.w, result.2)

/-- `encode_stream` with enough fuel for every reader that ends in end of file and at least one
thread: every round but the last consumes an event or a byte. -/
def encodeStream (dist : Distance) (r : Reader) (w : Writer) (numThreads : Nat)
    (strategy : Strategy) : Writer × Res Unit :=
  encodeStreamFuel (eventsSize r.events + r.events.length + 2) dist r w numThreads strategy

/-! ### decode_stream -/

/-- lib/src/stream/mod.rs:182-191 `read_file_header`. -/
def readFileHeader (br : BitReader) : Res BitReader := do
  let (res, br) ← br.readBytes 4
  match res with
  | [0x42, 0x5a, 0x68, _] => pure br
  | _ => Res.err

/-- lib/src/stream/mod.rs:193-197 `enum BlockType`. -/
inductive BlockType where
  | streamFooter
  | blockHeader
  deriving Repr, DecidableEq

/-- lib/src/stream/mod.rs:199-209 `what_next`. -/
def whatNext (br : BitReader) : Res (BlockType × BitReader) := do
  let (res, br) ← br.readBytes 6
  if res = [0x31, 0x41, 0x59, 0x26, 0x53, 0x59] then pure (BlockType.blockHeader, br)
  else if res = [0x17, 0x72, 0x45, 0x38, 0x50, 0x90] then pure (BlockType.streamFooter, br)
  else Res.err

/-- The loop of lib/src/stream/mod.rs:215-222. -/
def decodeLoop : Nat → BitReader → Writer → Writer × Res Unit
  | 0, _, w => (w, Res.div)
  | fuel + 1, br, w =>
    match whatNext br with
    | Res.ok (BlockType.streamFooter, _) => (w, Res.ok ())
    | Res.ok (BlockType.blockHeader, br) =>
      match decodeBlock br w with
      | (w, Res.ok br) => decodeLoop fuel br w
      | (w, Res.err) => (w, Res.err)
      | (w, Res.panic) => (w, Res.panic)
      | (w, Res.div) => (w, Res.div)
    | Res.err => (w, Res.err)
    | Res.panic => (w, Res.panic)
    | Res.div => (w, Res.div)

/-- lib/src/stream/mod.rs:212-224 `decode_stream`. -/
def decodeStream (r : Reader) (w : Writer) : Writer × Res Unit :=
  let br := BitReader.fromReader r
  match readFileHeader br with
  | Res.ok br => decodeLoop br.fuel br w
  | Res.err => (w, Res.err)
  | Res.panic => (w, Res.panic)
  | Res.div => (w, Res.div)

/-- `encode_stream` from a byte slice into a `Vec<u8>`. -/
def encodeBytes (dist : Distance) (data : List UInt8) (numThreads : Nat) (strategy : Strategy) :
    Res (List UInt8) :=
  match encodeStream dist (Reader.ofBytes data) Writer.empty numThreads strategy with
  | (w, Res.ok _) => Res.ok w.out
  | (_, Res.err) => Res.err
  | (_, Res.panic) => Res.panic
  | (_, Res.div) => Res.div

/-- `decode_stream` from a byte slice into a `Vec<u8>`. -/
def decodeBytes (bytes : List UInt8) : Res (List UInt8) :=
  match decodeStream (Reader.ofBytes bytes) Writer.empty with
  | (w, Res.ok _) => Res.ok w.out
  | (_, Res.err) => Res.err
  | (_, Res.panic) => Res.panic
  | (_, Res.div) => Res.div

end Ribzip2
