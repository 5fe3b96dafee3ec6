import Verif.Model.Ieee
/-
The library on a machine whose `usize` has `bits` bits (64 on the usual machines, 32 on small ones), in a build with
overflow checks.  The other files model additions, multiplications and `as usize` conversions of `usize` numbers by those
of `Nat` (or, where that matters, for 64 bits); here they are bounded: an operation whose result does not fit panics.

Not repeated here is the arithmetic on positions and lengths of vectors that exist at that time (`i + 1`, `cursor + num`,
`n + 1`, `(RLE_LIMIT - rle_data.len()) * 4`, ...): the vectors hold at most 900005 elements in the encoder, and in the
decoder a vector has at most `isize::MAX` bytes, so that sums of two such numbers fit; and the counters of `code_tables`,
`read_symbols`, `read_unary` and `compute_lis`, which count elements of such vectors.
-/
namespace Ribzip2.Word

/-- `a + b` on `usize`. -/
def addU (bits a b : Nat) : Res Nat := if a + b < 2 ^ bits then Res.ok (a + b) else Res.panic

/-- `a * b` on `usize`. -/
def mulU (bits a b : Nat) : Res Nat := if a * b < 2 ^ bits then Res.ok (a * b) else Res.panic

/-! ### bitwise -/

/-- lib/src/bitwise/bitwriter.rs:68-78 `convert_to_number`; `ct` is the number so far. -/
def numberLoop (bits : Nat) : List Bit → Nat → Res Nat
  | [], ct => Res.ok ct
  | digit :: rest, ct => do
    let ct ← mulU bits ct 2
    let ct ← if digit then addU bits ct 1 else Res.ok ct
    numberLoop bits rest ct

/-- lib/src/bitwise/bitwriter.rs:68-78 `convert_to_number`. -/
def convertToNumber (bits : Nat) (input : List Bit) : Res Nat := numberLoop bits input 0

/-- lib/src/bitwise/bitwriter.rs:143-146 `increment_symbol`. -/
def incrementSymbol (bits : Nat) (input : List Bit) : Res (List Bit) := do
  let number ← convertToNumber bits input
  let number ← addU bits number 1
  pure (convertToCodePadToNBits number input.length)

/-! ### zle.rs, encoder -/

/-- lib/src/block/zle.rs:63-73 `encode_zero_amount`. -/
def encodeZeroAmount (bits numberOfZeros : Nat) : Res (List ZleSymbol) := do
  let num ← addU bits numberOfZeros 1
  pure (zeroDigits num num).dropLast

/-- lib/src/block/zle.rs:85-91 and 97-103: the pending zeros are encoded and reported. -/
def flushZeros {σ : Type} (bits : Nat) (rep : SymbolReporter σ) (zeroCount : Nat) (result : List ZleSymbol) (s : σ) :
    Res (List ZleSymbol × σ) :=
  if zeroCount > 0 then do
    let enc ← encodeZeroAmount bits zeroCount
    let s' ← reportAll rep s enc
    pure (result ++ enc, s')
  else Res.ok (result, s)

/-- The loop of lib/src/block/zle.rs:81-96 followed by lines 97-103. -/
def zleLoop {σ : Type} (bits : Nat) (rep : SymbolReporter σ) :
    List UInt8 → Nat → List ZleSymbol → σ → Res (List ZleSymbol × σ)
  | [], zeroCount, result, s => flushZeros bits rep zeroCount result s
  | i :: rest, zeroCount, result, s =>
    if i = 0 then do
      let zeroCount ← addU bits zeroCount 1
      zleLoop bits rep rest zeroCount result s
    else do
      let (result, s) ← flushZeros bits rep zeroCount result s
      let s ← rep.report s (ZleSymbol.number i)
      zleLoop bits rep rest 0 (result ++ [ZleSymbol.number i]) s

/-- lib/src/block/zle.rs:75-109 `zle_transform`. -/
def zleTransform {σ : Type} (bits : Nat) (rep : SymbolReporter σ) (s0 : σ) (input : List UInt8) :
    Res (List ZleSymbol × ReportedSymbols) := do
  let (result, s) ← zleLoop bits rep input 0 [] s0
  let s ← rep.report s ZleSymbol.runA
  let r ← rep.finalize s
  pure (result, r)

/-! ### symbol_statistics -/

/-- lib/src/block/symbol_statistics/mod.rs:35-48 `report_symbol` of `SinglePropabilityMap`. -/
def singleReport (bits : Nat) (s : SingleMap) (sym : ZleSymbol) : Res SingleMap := do
  let symbolCount ← addU bits s.symbolCount 1
  let c ← idx s.frequencies (symbolIndex sym)
  let c ← addU bits c 1
  let fs ← setIdx s.frequencies (symbolIndex sym) c
  pure ⟨fs, symbolCount⟩

/-- `a as usize`: truncates, saturates, and maps NaN to 0. -/
def toUsize (bits : Nat) : F32 → Nat
  | F32.num a => min a.floor.toNat (2 ^ bits - 1)
  | F32.inf a => if a then 0 else 2 ^ bits - 1
  | F32.nan => 0

/-- lib/src/block/symbol_statistics/mod.rs:50-58 `finalize` of `SinglePropabilityMap`. -/
def singleFinalize (bits : Nat) (s : SingleMap) : Res ReportedSymbols :=
  Res.ok ⟨[s.frequencies, s.frequencies],
    List.replicate (toUsize bits ((F32.ofNat s.symbolCount).div (F32.num 50)).ceil) 0⟩

/-- lib/src/block/symbol_statistics/mod.rs:84-104 `report_symbol` of `BlockWisePropabilityMap`. -/
def blockWiseReport (bits : Nat) (s : BlockWiseMap) (sym : ZleSymbol) : Res BlockWiseMap := do
  let c ← idx s.current (symbolIndex sym)
  let c ← if c + 1 < 256 then Res.ok (c + 1) else Res.panic
  let current ← setIdx s.current (symbolIndex sym) c
  let counter ← addU bits s.counter 1
  if counter ≥ 50 then
    pure { s with current := List.replicate (s.size + 1) 0, maps := s.maps ++ [current], counter := 0 }
  else pure { s with current := current, counter := counter }

/-- lib/src/block/symbol_statistics/kmeansclustering.rs:23-31: the initial centers. -/
def initialCenters (bits : Nat) (data : List (List Nat)) (numClusters : Nat) : Nat → Res (List (List F32))
  | 0 => Res.ok []
  | k + 1 => do
    let prev ← initialCenters bits data numClusters k
    let product ← mulU bits k data.length
    let point ← idx data (product / numClusters)
    pure (prev ++ [point.map F32.ofNat])

/-- lib/src/block/symbol_statistics/kmeansclustering.rs:20-90 `solve`: (means, assignments). -/
def kmeansSolve (bits dimension : Nat) (data : List (List Nat)) (numIterations numClusters : Nat) :
    Res (List (List Nat) × List UInt8) := do
  let centers ← initialCenters bits data numClusters numClusters
  let (centers, assignments) ←
    lloyd32 dimension numClusters data numIterations centers (List.replicate data.length 0)
  pure (centers.map (fun c => c.map (fun x => toUsize bits (x.mul (F32.num 10000)))), assignments)

/-- lib/src/block/symbol_statistics/mod.rs:106-130 `finalize` of `BlockWisePropabilityMap`. -/
def blockWiseFinalize (bits numClusters numIterations : Nat) (s : BlockWiseMap) : Res ReportedSymbols := do
  let (means, assignments) ← kmeansSolve bits (s.size + 1) (s.maps ++ [s.current]) numIterations numClusters
  pure ⟨means, assignments⟩

/-- lib/src/block/block_encoder.rs:33-49: zero-run encoding with the reporter of the strategy. -/
def zleWithStrategy (bits : Nat) (strategy : Strategy) (encoded : List UInt8) (numUsed : Nat) :
    Res (List ZleSymbol × ReportedSymbols) :=
  match strategy with
  | Strategy.blockWise numClusters numIterations =>
    zleTransform bits ⟨blockWiseReport bits, blockWiseFinalize bits numClusters numIterations⟩
      (BlockWiseMap.create numUsed) encoded
  | Strategy.single => zleTransform bits ⟨singleReport bits, singleFinalize bits⟩ (SingleMap.create numUsed) encoded

/-! ### huffman -/

/-- lib/src/block/huffman/package_merge.rs:84-91: the sum of the two values. -/
def mergePairs (bits : Nat) : List CoinEntry → Res (List CoinEntry)
  | l :: r :: rest => do
    let value ← addU bits l.value r.value
    let more ← mergePairs bits rest
    pure (CoinEntry.two value l r :: more)
  | _ => Res.ok []

/-- The loop of lib/src/block/huffman/package_merge.rs:69-92; also the list of the last round is merged (and the result
not used). -/
def packageLoop (bits : Nat) (coins : List Coin) : Nat → List CoinEntry → Res (List CoinEntry)
  | 0, toMerge => do
    let last := stableSort CoinEntry.le (coinsAt coins 0 ++ toMerge)
    let _ ← mergePairs bits last
    pure last
  | e + 1, toMerge => do
    let merged ← mergePairs bits (stableSort CoinEntry.le (coinsAt coins (e + 1) ++ toMerge))
    packageLoop bits coins e merged

/-- lib/src/block/huffman/package_merge.rs:38-96 `package_merge`. -/
def packageMerge (bits : Nat) (coins : List Coin) : Res (List (List Coin)) := do
  let maxExp ← Res.ofOption ((coins.map (fun c => c.exponent)).max?)
  let last ← packageLoop bits coins maxExp []
  pure (last.map CoinEntry.flatten)

/-- lib/src/block/huffman/package_merge.rs:7-34 `compute_lis`. -/
def computeLis (bits : Nat) (weights : List Nat) (limit : Nat) : Res (List Nat) := do
  let coins := (List.range limit).flatMap (fun i => weights.map (fun w => (⟨w, i + 1⟩ : Coin)))
  let packages ← packageMerge bits coins
  let n ← subU weights.length 1
  let solution := (packages.take n).flatten
  pure (weights.map (fun w => (solution.filter (fun c => c.value = w)).length))

/-- lib/src/block/huffman/huffman_internal.rs:76-86, breaking ties. -/
def breakTies (bits : Nat) : Option Nat → List (Nat × HSym) → Res (List (Nat × HSym))
  | _, [] => Res.ok []
  | none, (f, s) :: rest => do
    let more ← breakTies bits (some f) rest
    pure ((f, s) :: more)
  | some last, (f, s) :: rest => do
    let f' ← if last ≥ f then do
        let difference ← addU bits (last - f) 1
        addU bits f difference
      else Res.ok f
    let more ← breakTies bits (some f') rest
    pure ((f', s) :: more)

/-- lib/src/block/huffman/huffman_internal.rs:57-103 `compute_huffman`. -/
def computeHuffman (bits : Nat) (freqs : List Nat) : Res (List CodeTableEntry) := do
  let table ← breakTies bits none (sortedFrequencies freqs)
  let weights := table.map (fun x => x.1)
  let codeLengths ← computeLis bits weights 17
  pure ((codeLengths.zip table).map (fun p => ⟨p.1, p.2.2⟩))

/-- The loop of lib/src/block/huffman/huffman_internal.rs:124-139. -/
def canonicalLoop (bits : Nat) : List Bit → List CodeTableEntry → Res (List CanonicalEntry)
  | _, [] => Res.ok []
  | last, entry :: rest => do
    let unpadded ← incrementSymbol bits last
    let code := unpadded ++ List.replicate (entry.code - unpadded.length) false
    let more ← canonicalLoop bits code rest
    pure (⟨code, entry.symbol⟩ :: more)

/-- lib/src/block/huffman/huffman_internal.rs:109-143 `canonicalize`. -/
def canonicalize (bits : Nat) (table : List CodeTableEntry) : Res (List CanonicalEntry) :=
  match stableSort CodeTableEntry.le table with
  | [] => Res.panic
  | first :: rest => do
    let last := List.replicate first.code false
    let more ← canonicalLoop bits last rest
    pure (stableSort (fun x y => x.symbol.rank ≤ y.symbol.rank) (⟨last, first.symbol⟩ :: more))

/-! ### block_encoder.rs and the encoder -/

/-- lib/src/block/block_encoder.rs:55-58: all code tables. -/
def codeTables (bits : Nat) : List (List Nat) → Res (List (List CanonicalEntry))
  | [] => Res.ok []
  | freqs :: rest => do
    let t ← computeHuffman bits freqs
    let c ← canonicalize bits t
    let more ← codeTables bits rest
    pure (c :: more)

/-- lib/src/block/block_encoder.rs:51-112: the bits of a block from its transformed data. -/
def emitBlock (bits : Nat) (checksum : BitVec 32) (origPtr : Nat) (used : List UInt8) (zle : List ZleSymbol)
    (reported : ReportedSymbols) : Res (List Bit) := do
  let tables ← codeTables bits reported.frequencies
  let (selectorBits, numSelectors) ← createSelectors reported.selectors
  let numSelectorBits ← convertToCodePadTo15Bits (UInt16.ofNat numSelectors)
  let payload ← encodeSymbols tables reported.selectors zle 0
  let lastTable ← tableAt tables reported.selectors zle.length
  let eob ← Res.ofOption (lastTable.find? (fun e => e.symbol == HSym.eob))
  pure (blockHeader checksum origPtr
    ++ getSymbolTable used
    ++ convertToCodePadToNBits tables.length 3
    ++ numSelectorBits
    ++ selectorBits
    ++ tables.flatMap encodeCodeTable
    ++ payload
    ++ eob.code)

/-- lib/src/block/block_encoder.rs:24-113 `generate_block_data`. -/
def generateBlockData (bits : Nat) (strategy : Strategy) (checksum : BitVec 32) (rleData : List UInt8) :
    Res (List Bit) := do
  let (bwtData, origPtr) ← bwt rleData
  let (encoded, used) ← mtf bwtData
  let (zle, reported) ← zleWithStrategy bits strategy encoded used.length
  emitBlock bits checksum origPtr used zle reported

/-- lib/src/stream/mod.rs:105-180 `encode_stream`, as `encodeStreamFuel`. -/
def encodeStreamFuel (bits fuel : Nat) (r : Reader) (w : Writer) (numThreads : Nat) (strategy : Strategy) :
    Writer × Res Unit :=
  let gen := fun work => generateBlockData bits strategy work.crc work.rleTotal
  let result :=
    andThen
      (match (BitWriter.fromWriter w).writeBits fileHeader with | (bw, r) => (bw, r.unwrap))
      fun bw _ =>
    andThen (mainLoop gen r.failTail numThreads fuel r.events false bw 0) fun bw crc =>
    andThen (match bw.writeBits (streamFooter crc) with | (bw, r) => (bw, r.unwrap)) fun bw _ =>
    match bw.finalize with | (bw, r) => (bw, r.unwrap)
  (result.1.w, result.2)

/-- `encode_stream` with enough fuel, as `encodeStream`. -/
def encodeStream (bits : Nat) (r : Reader) (w : Writer) (numThreads : Nat) (strategy : Strategy) : Writer × Res Unit :=
  encodeStreamFuel bits (eventsSize r.events + r.events.length + 2) r w numThreads strategy

/-- `encode_stream` from a byte slice into a `Vec<u8>`. -/
def encodeBytes (bits : Nat) (data : List UInt8) (numThreads : Nat) (strategy : Strategy) : Res (List UInt8) :=
  match encodeStream bits (Reader.ofBytes data) Writer.empty numThreads strategy with
  | (w, Res.ok _) => Res.ok w.out
  | (_, Res.err) => Res.err
  | (_, Res.panic) => Res.panic
  | (_, Res.div) => Res.div

/-! ### The decoder -/

/-- The loop of lib/src/block/code_table.rs:67-81. -/
def readDeltaLoop (bits amount : Nat) :
    Nat → BitReader → List UInt8 → Nat → Nat → Res (List UInt8 × BitReader)
  | 0, _, _, _, _ => Res.div
  | fuel + 1, br, out, start, read => do
    let (bit, br) ← br.readBits 1
    match bit with
    | [true] =>
      let (bit, br) ← br.readBits 1
      let start ← match bit with
        | [false] => addU bits start 1
        | _ => subU start 1
      if read = amount then pure (out, br) else readDeltaLoop bits amount fuel br out start read
    | _ =>
      let out := out ++ [UInt8.ofNat start]
      if read + 1 = amount then pure (out, br)
      else readDeltaLoop bits amount fuel br out start (read + 1)

/-- lib/src/block/code_table.rs:62-83 `read_delta`. -/
def readDelta (bits : Nat) (br : BitReader) (amount : Nat) : Res (List UInt8 × BitReader) := do
  let (five, br) ← br.readBits 5
  let start ← convertToNumber bits five
  readDeltaLoop bits amount br.fuel br [] start 0

/-- lib/src/block/zle.rs:133-148 `decode_zero_amount`: `number <<= 1` silently drops the top bit; the check of line 119/127
(`vec![0u8; n]` panics for `n` above `isize::MAX`) is included. -/
def decodeZeroAmount (bits : Nat) (input : List ZleSymbol) : Res Nat :=
  let number := (ZleSymbol.runB :: input.reverse).foldl
    (fun number bit => (number * 2) % 2 ^ bits + (if bit = ZleSymbol.runB then 1 else 0)) 0
  do
    let n ← subU number 1
    if n < 2 ^ (bits - 1) then pure n else Res.panic

/-- The loop of lib/src/block/zle.rs:114-125 followed by lines 126-129. -/
def decodeZleLoop (bits : Nat) : List ZleSymbol → List ZleSymbol → List UInt8 → Res (List UInt8)
  | [], zeros, output =>
    if zeros.isEmpty then Res.ok output
    else do
      let n ← decodeZeroAmount bits zeros
      pure (output ++ List.replicate n 0)
  | ZleSymbol.number element :: rest, zeros, output =>
    if zeros.isEmpty then decodeZleLoop bits rest [] (output ++ [element])
    else do
      let n ← decodeZeroAmount bits zeros
      decodeZleLoop bits rest [] (output ++ List.replicate n 0 ++ [element])
  | sym :: rest, zeros, output => decodeZleLoop bits rest (zeros ++ [sym]) output

/-- lib/src/block/zle.rs:111-131 `decode_zle`. -/
def decodeZle (bits : Nat) (input : List ZleSymbol) : Res (List UInt8) := decodeZleLoop bits input [] []

/-- lib/src/block/block_decoder.rs:35-38. -/
def readTrees (bits amount : Nat) : Nat → BitReader → Res (List (List UInt8) × BitReader)
  | 0, br => Res.ok ([], br)
  | n + 1, br => do
    let (tree, br) ← (readDelta bits br amount).unwrap
    let (more, br) ← readTrees bits amount n br
    pure (tree :: more, br)

/-- lib/src/block/block_decoder.rs:39-42. -/
def buildTables (bits : Nat) : List (List UInt8) → Res (List (List CanonicalEntry))
  | [] => Res.ok []
  | tree :: rest => do
    let w ← fromWeights tree
    let c ← canonicalize bits w
    let more ← buildTables bits rest
    pure (c :: more)

/-- lib/src/block/block_decoder.rs:21-58. -/
def decodeBlockData (bits : Nat) (br : BitReader) : Res (List UInt8 × BitReader) := do
  let (crcBits, br) ← (br.readBits 32).unwrap
  let crcNumber ← convertToNumber bits crcBits
  let (_randomized, br) ← br.readBits 1
  let (ptrBits, br) ← (br.readBits 24).unwrap
  let origPtr ← convertToNumber bits ptrBits
  let (symbols, br) ← (readSymbolTable br).unwrap
  let (treeBits, br) ← (br.readBits 3).unwrap
  let numTrees ← convertToNumber bits treeBits
  let (selBits, br) ← (br.readBits 15).unwrap
  let numSelectors ← convertToNumber bits selBits
  let (selectors, br) ← (readUnary br numSelectors).unwrap
  let selectors ← inverseMtf selectors ((List.range numTrees).map UInt8.ofNat)
  let (trees, br) ← readTrees bits (symbols.length + 2) numTrees br
  let tables ← buildTables bits trees
  let (zleInput, br) ← readGroups tables selectors br
  let mtfInput ← decodeZle bits zleInput
  let bwtInput ← inverseMtf mtfInput symbols
  let rleInput ← inverseBwt bwtInput origPtr
  let decoded := inverseRle rleInput
  if crc32 decoded = BitVec.ofNat 32 crcNumber then pure (decoded, br) else Res.err

/-- lib/src/block/block_decoder.rs:21-61 `decode_block`. -/
def decodeBlock (bits : Nat) (br : BitReader) (w : Writer) : Writer × Res BitReader :=
  match decodeBlockData bits br with
  | Res.ok (decoded, br') =>
    match w.write decoded with
    | (w', Res.ok _) => (w', Res.ok br')
    | (w', _) => (w', Res.err)
  | Res.err => (w, Res.err)
  | Res.panic => (w, Res.panic)
  | Res.div => (w, Res.div)

/-- The loop of lib/src/stream/mod.rs:215-222. -/
def decodeLoop (bits : Nat) : Nat → BitReader → Writer → Writer × Res Unit
  | 0, _, w => (w, Res.div)
  | fuel + 1, br, w =>
    match whatNext br with
    | Res.ok (BlockType.streamFooter, _) => (w, Res.ok ())
    | Res.ok (BlockType.blockHeader, br) =>
      match decodeBlock bits br w with
      | (w, Res.ok br) => decodeLoop bits fuel br w
      | (w, Res.err) => (w, Res.err)
      | (w, Res.panic) => (w, Res.panic)
      | (w, Res.div) => (w, Res.div)
    | Res.err => (w, Res.err)
    | Res.panic => (w, Res.panic)
    | Res.div => (w, Res.div)

/-- lib/src/stream/mod.rs:212-224 `decode_stream`. -/
def decodeStream (bits : Nat) (r : Reader) (w : Writer) : Writer × Res Unit :=
  let br := BitReader.fromReader r
  match readFileHeader br with
  | Res.ok br => decodeLoop bits br.fuel br w
  | Res.err => (w, Res.err)
  | Res.panic => (w, Res.panic)
  | Res.div => (w, Res.div)

/-- `decode_stream` from a byte slice into a `Vec<u8>`. -/
def decodeBytes (bits : Nat) (bytes : List UInt8) : Res (List UInt8) :=
  match decodeStream bits (Reader.ofBytes bytes) Writer.empty with
  | (w, Res.ok _) => Res.ok w.out
  | (_, Res.err) => Res.err
  | (_, Res.panic) => Res.panic
  | (_, Res.div) => Res.div

end Ribzip2.Word
