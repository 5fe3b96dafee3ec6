import Verif.Model.StepsBlock
import Verif.Model.Stream
/- Decompressing with a step counter: the functions of Model/Bitwise.lean, SymbolMap.lean, Huffman.lean, Zle.lean,
Mtf.lean, Bwt.lean, Rle.lean, Block.lean and Stream.lean that `decode_stream` uses, in the monad of
Model/StepsBlock.lean. Counted are executions of loop bodies and elements created, copied or moved, as there; comparing
two slices of equal length counts their length; sorting `n` elements counts `n * (log2 n + 1)` steps in `inverse_bwt`.
Getting one byte from the reader is one step. -/
namespace Ribzip2
open Cost

/-- Rust's `.unwrap()`, counted. -/
def Cost.unwrap {α : Type} (x : Cost α) : Cost α := Res.unwrap x.run

/-! ### bitreader.rs, bitwriter.rs -/

/-- lib/src/bitwise/bitreader.rs:44-76 `read_bits`, counted: each bit takes an iteration, and up to one more to get the
byte. -/
def BitReader.readBitsC (br : BitReader) : Nat → Cost (List Bit × BitReader)
  | 0 => pure ([], br)
  | n + 1 => do
    tick 2
    let (b, br') ← lift br.refill
    let bit : Bit := (b.toNat / 2 ^ (8 - br'.cursor - 1)) % 2 != 0
    let (bits, br'') ← BitReader.readBitsC { br' with cursor := br'.cursor + 1 } n
    pure (bit :: bits, br'')

/-- lib/src/bitwise/bitwriter.rs:68-78 `convert_to_number`, counted. -/
def convertToNumberC (input : List Bit) : Cost Nat := do
  tick input.length
  pure (convertToNumber input)

/-- lib/src/bitwise/bitreader.rs:15-21 `read_bytes`, counted. -/
def BitReader.readBytesC (br : BitReader) : Nat → Cost (List UInt8 × BitReader)
  | 0 => pure ([], br)
  | n + 1 => do
    tick 1
    let (bits, br') ← br.readBitsC 8
    let number ← convertToNumberC bits
    let (bytes, br'') ← BitReader.readBytesC br' n
    pure (UInt8.ofNat number :: bytes, br'')

/-! ### symbol_map.rs, selectors.rs, code_table.rs -/

/-- lib/src/block/symbol_map.rs:75-80 `get_symbol_table` (with 45-65), counted: every region makes 16 elements, each of
which is looked at, and makes at most one symbol, which is copied. -/
def readSymbolTableC (br : BitReader) : Cost (List UInt8 × BitReader) := do
  let (index, br) ← br.readBitsC 16
  tick (2 * index.length)
  let usedRegions := getUsedRegions index
  let (regions, br) ← br.readBitsC (16 * usedRegions.length)
  tick (usedRegions.length + 4 * (16 * usedRegions.length))
  pure (getUsedSymbolsFromRegions usedRegions regions, br)

/-- The loop of lib/src/block/selectors.rs:31-44, counted. -/
def readUnaryLoopC (amount : Nat) :
    Nat → BitReader → List UInt8 → Nat → Nat → Cost (List UInt8 × BitReader)
  | 0, _, _, _, _ => lift Res.div
  | fuel + 1, br, output, currentSymbol, symbolCount => do
    tick 1
    let (bits, br) ← br.readBitsC 1
    match bits with
    | [true] =>
      if currentSymbol + 1 < 256 then
        if symbolCount ≥ amount then pure (output, br)
        else readUnaryLoopC amount fuel br output (currentSymbol + 1) symbolCount
      else lift Res.panic
    | [false] =>
      let output := output ++ [UInt8.ofNat currentSymbol]
      if symbolCount + 1 ≥ amount then pure (output, br)
      else readUnaryLoopC amount fuel br output 0 (symbolCount + 1)
    | _ => lift Res.err

/-- lib/src/block/selectors.rs:27-46 `read_unary`, counted. -/
def readUnaryC (br : BitReader) (amount : Nat) : Cost (List UInt8 × BitReader) :=
  readUnaryLoopC amount br.fuel br [] 0 0

/-- The loop of lib/src/block/code_table.rs:67-81, counted. -/
def readDeltaLoopC (amount : Nat) :
    Nat → BitReader → List UInt8 → Nat → Nat → Cost (List UInt8 × BitReader)
  | 0, _, _, _, _ => lift Res.div
  | fuel + 1, br, out, start, read => do
    tick 1
    let (bits, br) ← br.readBitsC 1
    match bits with
    | [true] => do
      let (bits, br) ← br.readBitsC 1
      let start ← lift (match bits with
        | [false] => Res.ok (start + 1)
        | _ => subU start 1)
      if read = amount then pure (out, br) else readDeltaLoopC amount fuel br out start read
    | _ =>
      let out := out ++ [UInt8.ofNat start]
      if read + 1 = amount then pure (out, br)
      else readDeltaLoopC amount fuel br out start (read + 1)

/-- lib/src/block/code_table.rs:62-83 `read_delta`, counted. -/
def readDeltaC (br : BitReader) (amount : Nat) : Cost (List UInt8 × BitReader) := do
  let (bits, br) ← br.readBitsC 5
  let number ← convertToNumberC bits
  readDeltaLoopC amount br.fuel br [] number 0

/-! ### huffman_internal.rs, reader.rs -/

/-- lib/src/block/huffman/huffman_internal.rs:145-165 `from_weights`, counted: the symbols are made, moved, and combined
with the lengths. -/
def fromWeightsC (codeLengths : List UInt8) : Cost (List CodeTableEntry) := do
  tick (4 * codeLengths.length)
  lift (fromWeights codeLengths)

/-- lib/src/block/huffman/reader.rs:49-59 `read_from_table`, counted. -/
def readFromTableC (symbols : List Bit) : List CanonicalEntry → Cost (Option HSym)
  | [] => pure none
  | entry :: rest => do
    tick (1 + if entry.code.length = symbols.length then symbols.length else 0)
    if entry.code == symbols then pure (some entry.symbol) else readFromTableC symbols rest

/-- The loop of lib/src/block/huffman/reader.rs:28-44, counted (one bit is appended). -/
def readSymbolsLoopC (table : List CanonicalEntry) (maxNumber : Nat) :
    Nat → BitReader → List ZleSymbol → List Bit → Nat → Cost (List ZleSymbol × BitReader)
  | 0, _, _, _, _ => lift Res.div
  | fuel + 1, br, all, current, symbolsRead => do
    tick 2
    let (bits, br) ← br.readBitsC 1
    let current := current ++ bits
    let found ← readFromTableC current table
    match found with
    | some (HSym.normal symbol) =>
      let all := all ++ [symbol]
      if symbolsRead + 1 = maxNumber then pure (all, br)
      else readSymbolsLoopC table maxNumber fuel br all [] (symbolsRead + 1)
    | some HSym.eob => pure (all, br)
    | none =>
      if symbolsRead = maxNumber then pure (all, br)
      else readSymbolsLoopC table maxNumber fuel br all current symbolsRead

/-- lib/src/block/huffman/reader.rs:19-46 `read_symbols`, counted. -/
def readSymbolsC (br : BitReader) (table : List CanonicalEntry) (maxNumber : Nat) :
    Cost (List ZleSymbol × BitReader) :=
  readSymbolsLoopC table maxNumber br.fuel br [] [] 0

/-! ### zle.rs, mtf.rs, bwt_inverse.rs, rle.rs, crc32.rs -/

/-- lib/src/block/zle.rs:133-148 `decode_zero_amount` and the zeros of lines 119 and 127, counted: the digits are copied,
reversed, moved and looked at; the zeros are made and moved. -/
def decodeZerosC (zeros : List ZleSymbol) : Cost Nat := do
  tick (4 * zeros.length + 2)
  let n ← lift (decodeZeroAmount zeros)
  tick (2 * n)
  pure n

/-- The loop of lib/src/block/zle.rs:114-125 followed by lines 126-129, counted. -/
def decodeZleLoopC : List ZleSymbol → List ZleSymbol → List UInt8 → Cost (List UInt8)
  | [], zeros, output =>
    if zeros.isEmpty then pure output
    else do
      let n ← decodeZerosC zeros
      pure (output ++ List.replicate n 0)
  | ZleSymbol.number element :: rest, zeros, output => do
    tick 1
    if zeros.isEmpty then decodeZleLoopC rest [] (output ++ [element])
    else do
      let n ← decodeZerosC zeros
      decodeZleLoopC rest [] (output ++ List.replicate n 0 ++ [element])
  | sym :: rest, zeros, output => do
    tick 1
    decodeZleLoopC rest (zeros ++ [sym]) output

/-- lib/src/block/zle.rs:111-131 `decode_zle`, counted. -/
def decodeZleC (input : List ZleSymbol) : Cost (List UInt8) := decodeZleLoopC input [] []

/-- The loop of lib/src/block/mtf.rs:61-71, counted: the search goes through at most all of the dictionary. -/
def inverseMtfLoopC : List UInt8 → List UInt8 → Cost (List UInt8)
  | [], _ => pure []
  | i :: rest, dict => do
    tick 1
    let value ← lift (idx dict i.toNat)
    tick dict.length
    let pos ← lift (Res.ofOption (dict.findIdx? (fun v => v == value)))
    let pos ← lift (if pos < 256 then Res.ok pos else Res.panic)
    let dict' ← bringToFrontC pos dict
    let out ← inverseMtfLoopC rest dict'
    pure (value :: out)

/-- lib/src/block/mtf.rs:57-73 `inverse_mtf`, counted: the dictionary is copied. -/
def inverseMtfC (input dictionary : List UInt8) : Cost (List UInt8) := do
  tick dictionary.length
  inverseMtfLoopC input dictionary

/-- The loop of lib/src/block/bwt/bwt_inverse.rs:7-11, counted. -/
def inverseBwtLoopC (pairs : List (Nat × UInt8)) : Nat → Nat → Cost (List UInt8)
  | 0, _ => pure []
  | k + 1, start => do
    tick 1
    let pair ← lift (idx pairs start)
    let more ← inverseBwtLoopC pairs k pair.1
    pure (pair.2 :: more)

/-- lib/src/block/bwt/bwt_inverse.rs:1-13 `inverse_bwt`, counted: the pairs are made, sorted, and searched. -/
def inverseBwtC (data : List UInt8) (origPtr : Nat) : Cost (List UInt8) := do
  tick data.length
  tick (data.length * (Nat.log2 data.length + 1))
  let pairs := sortedPairs data
  tick data.length
  let start ← lift (Res.ofOption (pairs.find? (fun p => p.1 == origPtr)))
  inverseBwtLoopC pairs data.length start.1

/-- The loop of lib/src/block/rle.rs:76-92, counted: a repeat count makes that many bytes and moves them. -/
def invRleLoopC : List UInt8 → InvRle → Cost InvRle
  | [], s => pure s
  | el :: rest, s => do
    let s' := invRleStep s el
    tick (1 + 2 * (s'.output.length - s.output.length))
    invRleLoopC rest s'

/-- lib/src/block/rle.rs:72-94 `inverse_rle`, counted. -/
def inverseRleC (input : List UInt8) : Cost (List UInt8) := do
  let s ← invRleLoopC input ⟨[], 0, none⟩
  pure s.output

/-- lib/src/block/crc32.rs:2-52 `crc32`, counted: the table is made anew in each call. -/
def crc32C (input : List UInt8) : Cost (BitVec 32) := do
  tick (256 + input.length)
  pure (crc32 input)

/-! ### block_decoder.rs -/

/-- lib/src/block/block_decoder.rs:35-38, counted. -/
def readTreesC (amount : Nat) : Nat → BitReader → Cost (List (List UInt8) × BitReader)
  | 0, br => pure ([], br)
  | n + 1, br => do
    tick 1
    let (tree, br) ← (readDeltaC br amount).unwrap
    let (more, br) ← readTreesC amount n br
    pure (tree :: more, br)

/-- lib/src/block/block_decoder.rs:39-42, counted. -/
def buildTablesC : List (List UInt8) → Cost (List (List CanonicalEntry))
  | [] => pure []
  | tree :: rest => do
    tick 1
    let w ← fromWeightsC tree
    let c ← canonicalizeC w
    let more ← buildTablesC rest
    pure (c :: more)

/-- lib/src/block/block_decoder.rs:44-48, counted: the symbols of the group are moved. -/
def readGroupsC (tables : List (List CanonicalEntry)) :
    List UInt8 → BitReader → Cost (List ZleSymbol × BitReader)
  | [], br => pure ([], br)
  | selector :: rest, br => do
    tick 1
    let table ← lift (idx tables selector.toNat)
    let (syms, br) ← (readSymbolsC br table 50).unwrap
    tick syms.length
    let (more, br) ← readGroupsC tables rest br
    pure (syms ++ more, br)

/-- lib/src/block/block_decoder.rs:21-58, counted. -/
def decodeBlockDataC (br : BitReader) : Cost (List UInt8 × BitReader) := do
  let (crcBits, br) ← (br.readBitsC 32).unwrap
  let number ← convertToNumberC crcBits
  let crc : BitVec 32 := BitVec.ofNat 32 number
  let (_randomized, br) ← br.readBitsC 1
  let (ptrBits, br) ← (br.readBitsC 24).unwrap
  let origPtr ← convertToNumberC ptrBits
  let (symbols, br) ← (readSymbolTableC br).unwrap
  let (treeBits, br) ← (br.readBitsC 3).unwrap
  let numTrees ← convertToNumberC treeBits
  let (selBits, br) ← (br.readBitsC 15).unwrap
  let numSelectors ← convertToNumberC selBits
  let (selectors, br) ← (readUnaryC br numSelectors).unwrap
  tick numTrees
  let selectors ← inverseMtfC selectors ((List.range numTrees).map UInt8.ofNat)
  let (trees, br) ← readTreesC (symbols.length + 2) numTrees br
  let tables ← buildTablesC trees
  let (zleInput, br) ← readGroupsC tables selectors br
  let mtfInput ← decodeZleC zleInput
  let bwtInput ← inverseMtfC mtfInput symbols
  let rleInput ← inverseBwtC bwtInput origPtr
  let decoded ← inverseRleC rleInput
  let computed ← crc32C decoded
  if computed = crc then pure (decoded, br) else lift Res.err

/-- lib/src/block/block_decoder.rs:21-61 `decode_block`, counted: the `write` call copies the data. -/
def decodeBlockC (br : BitReader) (w : Writer) : Writer × Res (BitReader × Nat) :=
  match (decodeBlockDataC br).run with
  | Res.ok ((decoded, br'), steps) =>
    match w.write decoded with
    | (w', Res.ok _) => (w', Res.ok (br', steps + decoded.length))
    | (w', _) => (w', Res.err)
  | Res.err => (w, Res.err)
  | Res.panic => (w, Res.panic)
  | Res.div => (w, Res.div)

/-! ### stream/mod.rs -/

/-- lib/src/stream/mod.rs:182-191 `read_file_header`, counted. -/
def readFileHeaderC (br : BitReader) : Cost BitReader := do
  let (res, br) ← br.readBytesC 4
  tick 4
  match res with
  | [0x42, 0x5a, 0x68, _] => pure br
  | _ => lift Res.err

/-- lib/src/stream/mod.rs:199-209 `what_next`, counted. -/
def whatNextC (br : BitReader) : Cost (BlockType × BitReader) := do
  let (res, br) ← br.readBytesC 6
  tick 12
  if res = [0x31, 0x41, 0x59, 0x26, 0x53, 0x59] then pure (BlockType.blockHeader, br)
  else if res = [0x17, 0x72, 0x45, 0x38, 0x50, 0x90] then pure (BlockType.streamFooter, br)
  else lift Res.err

/-- The loop of lib/src/stream/mod.rs:215-222, counted; `steps` is the number of steps so far. -/
def decodeLoopC : Nat → BitReader → Writer → Nat → Writer × Res (Unit × Nat)
  | 0, _, w, _ => (w, Res.div)
  | fuel + 1, br, w, steps =>
    match (whatNextC br).run with
    | Res.ok ((BlockType.streamFooter, _), k) => (w, Res.ok ((), steps + 1 + k))
    | Res.ok ((BlockType.blockHeader, br), k) =>
      match decodeBlockC br w with
      | (w, Res.ok (br, l)) => decodeLoopC fuel br w (steps + 1 + k + l)
      | (w, Res.err) => (w, Res.err)
      | (w, Res.panic) => (w, Res.panic)
      | (w, Res.div) => (w, Res.div)
    | Res.err => (w, Res.err)
    | Res.panic => (w, Res.panic)
    | Res.div => (w, Res.div)

/-- lib/src/stream/mod.rs:212-224 `decode_stream`, counted. -/
def decodeStreamC (r : Reader) (w : Writer) : Writer × Res (Unit × Nat) :=
  let br := BitReader.fromReader r
  match (readFileHeaderC br).run with
  | Res.ok (br, steps) => decodeLoopC br.fuel br w steps
  | Res.err => (w, Res.err)
  | Res.panic => (w, Res.panic)
  | Res.div => (w, Res.div)

end Ribzip2
