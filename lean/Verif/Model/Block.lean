import Verif.Model.Bitwise
import Verif.Model.Rle
import Verif.Model.Crc
import Verif.Model.Mtf
import Verif.Model.Zle
import Verif.Model.SymbolMap
import Verif.Model.Huffman
import Verif.Model.Stats
import Verif.Model.Bwt
/- Model of lib/src/block/block_encoder.rs and lib/src/block/block_decoder.rs. -/
namespace Ribzip2

/-- lib/src/block/symbol_statistics/mod.rs:12-18 `EncodingStrategy`. -/
inductive Strategy where
  | blockWise (numClusters numIterations : Nat)
  | single
  deriving Repr, DecidableEq

/-- lib/src/block/block_encoder.rs:115-133 `block_header`. -/
def blockHeader (crc : BitVec 32) (origPointer : Nat) : List Bit :=
  [0x31, 0x41, 0x59, 0x26, 0x53, 0x59].flatMap convertToCodePadToByte
  ++ convertToCodePadToBytes (crcAsBytes crc)
  ++ [false]
  ++ convertToCodePadToByte (UInt8.ofNat (origPointer / 2 ^ 16))
  ++ convertToCodePadToByte (UInt8.ofNat (origPointer / 2 ^ 8))
  ++ convertToCodePadToByte (UInt8.ofNat origPointer)

/-- lib/src/block/block_encoder.rs:91-96: the code of a symbol; nothing is written for a symbol
that is not in the table. -/
def codeOf (table : List CanonicalEntry) (symbol : HSym) : List Bit :=
  match table.find? (fun e => e.symbol == symbol) with
  | some e => e.code
  | none => []

/-- `&code_tables[selected_tables[position / 50] as usize]` (block_encoder.rs:89, 100). -/
def tableAt (tables : List (List CanonicalEntry)) (selected : List UInt8) (position : Nat) :
    Res (List CanonicalEntry) := do
  let s ← idx selected (position / 50)
  idx tables s.toNat

/-- The loop of lib/src/block/block_encoder.rs:86-97. -/
def encodeSymbols (tables : List (List CanonicalEntry)) (selected : List UInt8) :
    List ZleSymbol → Nat → Res (List Bit)
  | [], _ => Res.ok []
  | symbol :: rest, position => do
    let table ← tableAt tables selected position
    let more ← encodeSymbols tables selected rest (position + 1)
    pure (codeOf table (HSym.normal symbol) ++ more)

/-- lib/src/block/block_encoder.rs:55-58: all code tables. -/
def codeTables : List (List Nat) → Res (List (List CanonicalEntry))
  | [] => Res.ok []
  | freqs :: rest => do
    let t ← computeHuffman freqs
    let c ← canonicalize t
    let more ← codeTables rest
    pure (c :: more)

/-- lib/src/block/block_encoder.rs:33-49: zero-run encoding with the reporter of the strategy. -/
def zleWithStrategy (dist : Distance) (strategy : Strategy) (encoded : List UInt8) (numUsed : Nat) :
    Res (List ZleSymbol × ReportedSymbols) :=
  match strategy with
  | Strategy.blockWise numClusters numIterations =>
    zleTransform (blockWiseReporter dist numClusters numIterations) (BlockWiseMap.create numUsed) encoded
  | Strategy.single => zleTransform singleReporter (SingleMap.create numUsed) encoded

/-- lib/src/block/block_encoder.rs:51-112: the bits of a block from its transformed data. -/
def emitBlock (checksum : BitVec 32) (origPtr : Nat) (used : List UInt8) (zle : List ZleSymbol)
    (reported : ReportedSymbols) : Res (List Bit) := do
  let tables ← codeTables reported.frequencies
  let (selectorBits, numSelectors) ← createSelectors reported.selectors
  let numSelectorBits ← convertToCodePadTo15Bits (UInt16.ofNat numSelectors)
  let payload ← encodeSymbols tables reported.selectors zle 0
  let lastTable ← tableAt tables reported.selectors zle.length
  let eob ← Res.ofOption (lastTable.find? (fun e => e.symbol == HSym.eob))
  pure (blockHeader checksum origPtr
    ++ getSymbolTable used
    ++ convertToCodePadToNBits tables.length 3
    ++ numSelectorBits
    ++ selectorBits
    ++ tables.flatMap encodeCodeTable
    ++ payload
    ++ eob.code)

/-- lib/src/block/block_encoder.rs:24-113 `generate_block_data` (the checksum returned is the one
given). -/
def generateBlockData (dist : Distance) (strategy : Strategy) (checksum : BitVec 32)
    (rleData : List UInt8) : Res (List Bit) := do
  let (bwtData, origPtr) ← bwt rleData
  let (encoded, used) ← mtf bwtData
  let (zle, reported) ← zleWithStrategy dist strategy encoded used.length
  emitBlock checksum origPtr used zle reported

/-! ### block_decoder.rs -/

/-- `for _ in 0..num_trees { trees.push(reader.read_delta(n).unwrap()) }` (block_decoder.rs:35-38). -/
def readTrees (amount : Nat) : Nat → BitReader → Res (List (List UInt8) × BitReader)
  | 0, br => Res.ok ([], br)
  | n + 1, br => do
    let (tree, br) ← (readDelta br amount).unwrap
    let (more, br) ← readTrees amount n br
    pure (tree :: more, br)

/-- lib/src/block/block_decoder.rs:39-42: canonical code tables of all trees. -/
def buildTables : List (List UInt8) → Res (List (List CanonicalEntry))
  | [] => Res.ok []
  | tree :: rest => do
    let w ← fromWeights tree
    let c ← canonicalize w
    let more ← buildTables rest
    pure (c :: more)

/-- lib/src/block/block_decoder.rs:44-48: one group of at most 50 symbols per selector; the loop goes on to the
next selector also after an end-of-block symbol. -/
def readGroups (tables : List (List CanonicalEntry)) :
    List UInt8 → BitReader → Res (List ZleSymbol × BitReader)
  | [], br => Res.ok ([], br)
  | selector :: rest, br => do
    let table ← idx tables selector.toNat
    let (syms, br) ← (readSymbols br table 50).unwrap
    let (more, br) ← readGroups tables rest br
    pure (syms ++ more, br)

/-- lib/src/block/block_decoder.rs:21-58, `decode_block` up to the CRC comparison: the decoded bytes
of the block and the advanced reader. -/
def decodeBlockData (br : BitReader) : Res (List UInt8 × BitReader) := do
  let (crcBits, br) ← (br.readBits 32).unwrap
  let crc : BitVec 32 := BitVec.ofNat 32 (convertToNumber crcBits)
  let (_randomized, br) ← br.readBits 1
  let (ptrBits, br) ← (br.readBits 24).unwrap
  let origPtr := convertToNumber ptrBits
  let (symbols, br) ← (readSymbolTable br).unwrap
  let (treeBits, br) ← (br.readBits 3).unwrap
  let numTrees := convertToNumber treeBits
  let (selBits, br) ← (br.readBits 15).unwrap
  let numSelectors := convertToNumber selBits
  let (selectors, br) ← (readUnary br numSelectors).unwrap
  let selectors ← inverseMtf selectors ((List.range numTrees).map UInt8.ofNat)
  let (trees, br) ← readTrees (symbols.length + 2) numTrees br
  let tables ← buildTables trees
  let (zleInput, br) ← readGroups tables selectors br
  let mtfInput ← decodeZle zleInput
  let bwtInput ← inverseMtf mtfInput symbols
  let rleInput ← inverseBwt bwtInput origPtr
  let decoded := inverseRle rleInput
  if crc32 decoded = crc then pure (decoded, br) else Res.err

/-- lib/src/block/block_decoder.rs:21-61 `decode_block`: decode, then one `write` call whose byte
count is ignored. -/
def decodeBlock (br : BitReader) (w : Writer) : Writer × Res BitReader :=
  match decodeBlockData br with
  | Res.ok (decoded, br') =>
    match w.write decoded with
    | (w', Res.ok _) => (w', Res.ok br')
    | (w', _) => (w', Res.err)
  | Res.err => (w, Res.err)
  | Res.panic => (w, Res.panic)
  | Res.div => (w, Res.div)

end Ribzip2
