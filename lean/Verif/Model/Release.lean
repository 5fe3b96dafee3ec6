import Verif.Model.Stream
/-
The decoder in a build without overflow checks (`cargo build --release`): arithmetic wraps around
silently where the model of the other files panics.  Functions without arithmetic that can overflow are
those of the other files; the ones below are the ones that differ (and those that call them).

What the decoder computes with and why nothing else differs: `8 - cursor - 1` (bitreader.rs:56), `region *
16 + position` (symbol_map.rs:62) and the counters of `read_symbols`, `read_delta`, `read_unary` cannot
overflow; `number - 1` (zle.rs:147) wraps from 0 to `usize::MAX`, and `vec![0u8; usize::MAX]` then panics
like the checked subtraction; `len - 3` (huffman_internal.rs:150) wraps to a number for which
`u8::try_from` (or the allocation) panics like the checked subtraction.
-/
namespace Ribzip2.Release

/-- lib/src/bitwise/bitwriter.rs:143-146 `increment_symbol` with wrapping `usize` arithmetic: all
operations are modulo 2^64. -/
def incrementSymbol (input : List Bit) : Res (List Bit) :=
  Res.ok (convertToCodePadToNBits ((convertToNumber input + 1) % 2 ^ 64) input.length)

/-- The loop of lib/src/block/selectors.rs:31-44; `current_symbol += 1` wraps modulo 256. -/
def readUnaryLoop (amount : Nat) :
    Nat → BitReader → List UInt8 → Nat → Nat → Res (List UInt8 × BitReader)
  | 0, _, _, _, _ => Res.div
  | fuel + 1, br, output, currentSymbol, symbolCount => do
    let (bits, br) ← br.readBits 1
    match bits with
    | [true] =>
      if symbolCount ≥ amount then pure (output, br)
      else readUnaryLoop amount fuel br output ((currentSymbol + 1) % 256) symbolCount
    | [false] =>
      let output := output ++ [UInt8.ofNat currentSymbol]
      if symbolCount + 1 ≥ amount then pure (output, br)
      else readUnaryLoop amount fuel br output 0 (symbolCount + 1)
    | _ => Res.err

/-- lib/src/block/selectors.rs:27-46 `read_unary`. -/
def readUnary (br : BitReader) (amount : Nat) : Res (List UInt8 × BitReader) :=
  readUnaryLoop amount br.fuel br [] 0 0

/-- The loop of lib/src/block/code_table.rs:67-81; `start += 1` and `start -= 1` wrap modulo 2^64. -/
def readDeltaLoop (amount : Nat) :
    Nat → BitReader → List UInt8 → Nat → Nat → Res (List UInt8 × BitReader)
  | 0, _, _, _, _ => Res.div
  | fuel + 1, br, out, start, read => do
    let (bits, br) ← br.readBits 1
    match bits with
    | [true] =>
      let (bits, br) ← br.readBits 1
      let start := match bits with
        | [false] => (start + 1) % 2 ^ 64
        | _ => (start + (2 ^ 64 - 1)) % 2 ^ 64
      if read = amount then pure (out, br) else readDeltaLoop amount fuel br out start read
    | _ =>
      let out := out ++ [UInt8.ofNat start]
      if read + 1 = amount then pure (out, br)
      else readDeltaLoop amount fuel br out start (read + 1)

/-- lib/src/block/code_table.rs:62-83 `read_delta`. -/
def readDelta (br : BitReader) (amount : Nat) : Res (List UInt8 × BitReader) := do
  let (bits, br) ← br.readBits 5
  readDeltaLoop amount br.fuel br [] (convertToNumber bits) 0

/-- The loop of lib/src/block/huffman/huffman_internal.rs:124-139. -/
def canonicalLoop : List Bit → List CodeTableEntry → Res (List CanonicalEntry)
  | _, [] => Res.ok []
  | last, entry :: rest => do
    let unpadded ← incrementSymbol last
    let code := unpadded ++ List.replicate (entry.code - unpadded.length) false
    let more ← canonicalLoop code rest
    pure (⟨code, entry.symbol⟩ :: more)

/-- lib/src/block/huffman/huffman_internal.rs:109-143 `canonicalize`. -/
def canonicalize (table : List CodeTableEntry) : Res (List CanonicalEntry) :=
  match stableSort CodeTableEntry.le table with
  | [] => Res.panic
  | first :: rest => do
    let last := List.replicate first.code false
    let more ← canonicalLoop last rest
    pure (stableSort (fun x y => x.symbol.rank ≤ y.symbol.rank) (⟨last, first.symbol⟩ :: more))

/-- lib/src/block/huffman/huffman_internal.rs:145-165 `from_weights`: `u8::try_from(x).unwrap() + 1u8`
wraps to 0 for `x = 255` and panics for larger `x` (the decoder calls it with at most 258 lengths, so that
neither happens). -/
def fromWeights (codeLengths : List UInt8) : Res (List CodeTableEntry) := do
  let k ← subU codeLengths.length 3
  if k ≤ 256 then
    let symbols := [HSym.normal ZleSymbol.runA, HSym.normal ZleSymbol.runB]
      ++ (List.range k).map (fun x => HSym.normal (ZleSymbol.number (UInt8.ofNat (x + 1))))
      ++ [HSym.eob]
    pure ((symbols.zip codeLengths).map (fun p => ⟨p.2.toNat, p.1⟩))
  else Res.panic

/-- lib/src/block/block_decoder.rs:35-38. -/
def readTrees (amount : Nat) : Nat → BitReader → Res (List (List UInt8) × BitReader)
  | 0, br => Res.ok ([], br)
  | n + 1, br => do
    let (tree, br) ← (readDelta br amount).unwrap
    let (more, br) ← readTrees amount n br
    pure (tree :: more, br)

/-- lib/src/block/block_decoder.rs:39-42. -/
def buildTables : List (List UInt8) → Res (List (List CanonicalEntry))
  | [] => Res.ok []
  | tree :: rest => do
    let w ← fromWeights tree
    let c ← canonicalize w
    let more ← buildTables rest
    pure (c :: more)

/-- lib/src/block/block_decoder.rs:21-58. -/
def decodeBlockData (br : BitReader) : Res (List UInt8 × BitReader) := do
  let (crcBits, br) ← (br.readBits 32).unwrap
  let crc : BitVec 32 := BitVec.ofNat 32 (convertToNumber crcBits)
  let (_randomized, br) ← br.readBits 1
  let (ptrBits, br) ← (br.readBits 24).unwrap
  let origPtr := convertToNumber ptrBits
  let (symbols, br) ← (readSymbolTable br).unwrap
  let (treeBits, br) ← (br.readBits 3).unwrap
  let numTrees := convertToNumber treeBits
  let (selBits, br) ← (br.readBits 15).unwrap
  let numSelectors := convertToNumber selBits
  let (selectors, br) ← (readUnary br numSelectors).unwrap
  let selectors ← inverseMtf selectors ((List.range numTrees).map UInt8.ofNat)
  let (trees, br) ← readTrees (symbols.length + 2) numTrees br
  let tables ← buildTables trees
  let (zleInput, br) ← readGroups tables selectors br
  let mtfInput ← decodeZle zleInput
  let bwtInput ← inverseMtf mtfInput symbols
  let rleInput ← inverseBwt bwtInput origPtr
  let decoded := inverseRle rleInput
  if crc32 decoded = crc then pure (decoded, br) else Res.err

/-- lib/src/block/block_decoder.rs:21-61 `decode_block`. -/
def decodeBlock (br : BitReader) (w : Writer) : Writer × Res BitReader :=
  match decodeBlockData br with
  | Res.ok (decoded, br') =>
    match w.write decoded with
    | (w', Res.ok _) => (w', Res.ok br')
    | (w', _) => (w', Res.err)
  | Res.err => (w, Res.err)
  | Res.panic => (w, Res.panic)
  | Res.div => (w, Res.div)

/-- The loop of lib/src/stream/mod.rs:215-222. -/
def decodeLoop : Nat → BitReader → Writer → Writer × Res Unit
  | 0, _, w => (w, Res.div)
  | fuel + 1, br, w =>
    match whatNext br with
    | Res.ok (BlockType.streamFooter, _) => (w, Res.ok ())
    | Res.ok (BlockType.blockHeader, br) =>
      match decodeBlock br w with
      | (w, Res.ok br) => decodeLoop fuel br w
      | (w, Res.err) => (w, Res.err)
      | (w, Res.panic) => (w, Res.panic)
      | (w, Res.div) => (w, Res.div)
    | Res.err => (w, Res.err)
    | Res.panic => (w, Res.panic)
    | Res.div => (w, Res.div)

/-- lib/src/stream/mod.rs:212-224 `decode_stream`. -/
def decodeStream (r : Reader) (w : Writer) : Writer × Res Unit :=
  let br := BitReader.fromReader r
  match readFileHeader br with
  | Res.ok br => decodeLoop br.fuel br w
  | Res.err => (w, Res.err)
  | Res.panic => (w, Res.panic)
  | Res.div => (w, Res.div)

/-- `decode_stream` from a byte slice into a `Vec<u8>`. -/
def decodeBytes (bytes : List UInt8) : Res (List UInt8) :=
  match decodeStream (Reader.ofBytes bytes) Writer.empty with
  | (w, Res.ok _) => Res.ok w.out
  | (_, Res.err) => Res.err
  | (_, Res.panic) => Res.panic
  | (_, Res.div) => Res.div

end Ribzip2.Release
