import Verif.Model.Steps
import Verif.Model.Block
/- Compressing a block with a step counter: the functions of Model/Mtf.lean, Zle.lean, Stats.lean, Huffman.lean,
SymbolMap.lean and Block.lean once more, in a monad that counts. What is counted: every execution of a loop body (of
`for`, `while` and of the closures of iterators), and every element that an operation of std on a `Vec` or `VecDeque`
creates, copies or moves (`clone`, `append`, `extend`, `remove`, `vec![x; n]`); sorting `n` elements counts `n * n`
steps (std needs fewer). Where the model uses `map`, `filter` or `foldl` for a loop, the steps of the loop are counted
next to it. A constant number of operations between two steps is not counted. -/
namespace Ribzip2

/-- A computation that counts its steps. -/
def Cost (α : Type) : Type := Res (α × Nat)

namespace Cost

/-- No steps. -/
protected def pure {α : Type} (a : α) : Cost α := Res.ok (a, 0)

/-- One computation after the other; the steps add up. -/
protected def bind {α β : Type} (x : Cost α) (f : α → Cost β) : Cost β :=
  Res.bind x fun a => Res.bind (f a.1) fun b => Res.ok (b.1, a.2 + b.2)

instance : Monad Cost where
  pure := Cost.pure
  bind := Cost.bind

/-- `n` steps. -/
def tick (n : Nat) : Cost Unit := Res.ok ((), n)

/-- A computation without loops. -/
def lift {α : Type} (r : Res α) : Cost α := Res.bind r fun a => Res.ok (a, 0)

/-- The result and the number of steps. -/
def run {α : Type} (x : Cost α) : Res (α × Nat) := x

end Cost

open Cost

/-- `sort`, `sort_by`, `sort_unstable` of std. -/
def sortC {α : Type} (le : α → α → Bool) (l : List α) : Cost (List α) := do
  tick (l.length * l.length)
  pure (stableSort le l)

/-! ### mtf.rs -/

/-- lib/src/block/mtf.rs:46-55 `find_pos`, counted. -/
def findPosC (i : UInt8) : List UInt8 → Nat → Cost UInt8
  | [], _ => lift Res.panic
  | d :: ds, position => do
    tick 1
    if d = i then pure (UInt8.ofNat position) else findPosC i ds (position + 1)

/-- lib/src/block/mtf.rs:41-44 `bring_to_front_of_dict`, counted: `remove` moves at most all elements. -/
def bringToFrontC (position : Nat) (dict : List UInt8) : Cost (List UInt8) := do
  tick dict.length
  lift (bringToFront position dict)

/-- lib/src/block/mtf.rs:24-39 `create_dict`, counted: 256 flags are made and looked at. -/
def createDictC (input : List UInt8) : Cost (List UInt8 × List UInt8) := do
  tick (256 + input.length + 256)
  let used := usedSymbols input
  tick used.length
  let dict ← sortC (fun a b => a ≤ b) used
  pure (dict, used)

/-- lib/src/block/mtf.rs:12-16, counted. -/
def mtfLoopC : List UInt8 → List UInt8 → Cost (List UInt8)
  | [], _ => pure []
  | value :: rest, dict => do
    tick 1
    let pos ← findPosC value dict 0
    let dict' ← bringToFrontC pos.toNat dict
    let out ← mtfLoopC rest dict'
    pure (pos :: out)

/-- lib/src/block/mtf.rs:8-22 `mtf`, counted. -/
def mtfC (input : List UInt8) : Cost (List UInt8 × List UInt8) := do
  let (dict, used) ← createDictC input
  let encoded ← mtfLoopC input dict
  pure (encoded, used)

/-! ### zle.rs -/

/-- lib/src/block/zle.rs:67-71, counted. -/
def zeroDigitsC : Nat → Nat → Cost (List ZleSymbol)
  | 0, _ => pure []
  | fuel + 1, num =>
    if num > 0 then do
      tick 1
      let more ← zeroDigitsC fuel (num / 2)
      pure (convertRemainder (num % 2) :: more)
    else pure []

/-- lib/src/block/zle.rs:63-73 `encode_zero_amount`, counted. -/
def encodeZeroAmountC (numberOfZeros : Nat) : Cost (List ZleSymbol) := do
  let out ← zeroDigitsC (numberOfZeros + 1) (numberOfZeros + 1)
  tick out.length
  pure out.dropLast

/-- lib/src/block/symbol_statistics/mod.rs:133-136 `trait SymbolReporter`, counted. -/
structure SymbolReporterC (σ : Type) where
  report : σ → ZleSymbol → Cost σ
  finalize : σ → Cost ReportedSymbols

/-- lib/src/block/zle.rs:88-90, 100-102, counted. -/
def reportAllC {σ : Type} (rep : SymbolReporterC σ) : σ → List ZleSymbol → Cost σ
  | s, [] => pure s
  | s, x :: xs => do
    tick 1
    let s' ← rep.report s x
    reportAllC rep s' xs

/-- lib/src/block/zle.rs:85-91, 97-103, counted (`clone` and `extend`). -/
def flushZerosC {σ : Type} (rep : SymbolReporterC σ) (zeroCount : Nat) (result : List ZleSymbol) (s : σ) :
    Cost (List ZleSymbol × σ) :=
  if zeroCount > 0 then do
    let enc ← encodeZeroAmountC zeroCount
    tick (2 * enc.length)
    let s' ← reportAllC rep s enc
    pure (result ++ enc, s')
  else pure (result, s)

/-- lib/src/block/zle.rs:81-103, counted. -/
def zleLoopC {σ : Type} (rep : SymbolReporterC σ) :
    List UInt8 → Nat → List ZleSymbol → σ → Cost (List ZleSymbol × σ)
  | [], zeroCount, result, s => flushZerosC rep zeroCount result s
  | i :: rest, zeroCount, result, s => do
    tick 1
    if i = 0 then zleLoopC rep rest (zeroCount + 1) result s
    else do
      let (result, s) ← flushZerosC rep zeroCount result s
      let s ← rep.report s (ZleSymbol.number i)
      zleLoopC rep rest 0 (result ++ [ZleSymbol.number i]) s

/-- lib/src/block/zle.rs:75-109 `zle_transform`, counted. -/
def zleTransformC {σ : Type} (rep : SymbolReporterC σ) (s0 : σ) (input : List UInt8) :
    Cost (List ZleSymbol × ReportedSymbols) := do
  let (result, s) ← zleLoopC rep input 0 [] s0
  let s ← rep.report s ZleSymbol.runA
  let r ← rep.finalize s
  pure (result, r)

/-! ### symbol_statistics/mod.rs, kmeansclustering.rs -/

/-- lib/src/block/symbol_statistics/mod.rs:35-58, counted: `finalize` copies the table twice and makes the selectors. -/
def singleReporterC : SymbolReporterC SingleMap where
  report s sym := do
    tick 1
    lift (s.report sym)
  finalize s := do
    let r ← lift s.finalize
    tick (2 * s.frequencies.length + r.selectors.length)
    pure r

/-- lib/src/block/symbol_statistics/kmeansclustering.rs:41-53, counted; each distance (lines 93-99) takes a step for
each coordinate. -/
def nearestLoopC (dist : Distance) (point : List Nat) : List (List Rat) → Nat → Option Rat → Nat → Cost Nat
  | [], _, _, assignment => pure assignment
  | center :: rest, clusterNumber, minDistance, assignment => do
    tick (1 + point.length)
    let distance := dist center point
    match minDistance with
    | some m =>
      if distance < m then nearestLoopC dist point rest (clusterNumber + 1) (some distance) clusterNumber
      else nearestLoopC dist point rest (clusterNumber + 1) (some m) assignment
    | none => nearestLoopC dist point rest (clusterNumber + 1) (some distance) clusterNumber

/-- lib/src/block/symbol_statistics/kmeansclustering.rs:37-56, counted. -/
def assignAllC (dist : Distance) (centers : List (List Rat)) : List (List Nat) → Cost (List UInt8)
  | [] => pure []
  | point :: rest => do
    tick 1
    let a ← nearestLoopC dist point centers 0 none 0
    let more ← assignAllC dist centers rest
    pure (UInt8.ofNat a :: more)

/-- lib/src/block/symbol_statistics/kmeansclustering.rs:66-76, counted. -/
def updateLoopC : List (List Nat × UInt8) → List (List Rat) → List Nat → Cost (List (List Rat))
  | [], centers, _ => pure centers
  | (point, a) :: rest, centers, sizes => do
    tick (1 + point.length)
    let size ← lift (idx sizes a.toNat)
    let center ← lift (idx centers a.toNat)
    let centers ← lift (setIdx centers a.toNat (updateCenter center size point))
    let sizes ← lift (setIdx sizes a.toNat (size + 1))
    updateLoopC rest centers sizes

/-- lib/src/block/symbol_statistics/kmeansclustering.rs:35-77, counted; clearing the centers makes `dimension` zeros for
each, and there is a size for each. -/
def lloydC (dist : Distance) (dimension numClusters : Nat) (data : List (List Nat)) :
    Nat → List (List Rat) → List UInt8 → Cost (List (List Rat) × List UInt8)
  | 0, centers, assignments => pure (centers, assignments)
  | it + 1, centers, _ => do
    tick 1
    let assignments ← assignAllC dist centers data
    tick (centers.length * (1 + dimension) + numClusters)
    let cleared := centers.map (fun _ => List.replicate dimension (0 : Rat))
    let centers ← updateLoopC (data.zip assignments) cleared (List.replicate numClusters 0)
    lloydC dist dimension numClusters data it centers assignments

/-- lib/src/block/symbol_statistics/kmeansclustering.rs:23-31, counted. -/
def initialCentersC (data : List (List Nat)) (numClusters : Nat) : Nat → Cost (List (List Rat))
  | 0 => pure []
  | k + 1 => do
    let prev ← initialCentersC data numClusters k
    let point ← lift (idx data (k * data.length / numClusters))
    tick (1 + point.length)
    pure (prev ++ [point.map f32OfNat])

/-- lib/src/block/symbol_statistics/kmeansclustering.rs:20-90 `solve`, counted. -/
def kmeansSolveC (dist : Distance) (dimension : Nat) (data : List (List Nat))
    (numIterations numClusters : Nat) : Cost (List (List Nat) × List UInt8) := do
  let centers ← initialCentersC data numClusters numClusters
  tick data.length
  let (centers, assignments) ←
    lloydC dist dimension numClusters data numIterations centers (List.replicate data.length 0)
  tick (centers.map (fun c => 1 + c.length)).sum
  pure (centers.map (fun c => c.map (fun x => (f32Mul x 10000).floor.toNat)), assignments)

/-- lib/src/block/symbol_statistics/mod.rs:84-130, counted: a full group is replaced by new zeros; `finalize` does that,
too, and copies the means once more. -/
def blockWiseReporterC (dist : Distance) (numClusters numIterations : Nat) : SymbolReporterC BlockWiseMap where
  report s sym := do
    tick (if s.counter + 1 ≥ 50 then 1 + (s.size + 1) else 1)
    lift (s.report sym)
  finalize s := do
    tick (s.size + 1)
    let (means, assignments) ←
      kmeansSolveC dist (s.size + 1) (s.maps ++ [s.current]) numIterations numClusters
    tick (means.map (fun m => 1 + m.length)).sum
    pure ⟨means, assignments⟩

/-! ### package_merge.rs, huffman_internal.rs -/

/-- The number of nodes of a tree of coins, which a deep copy (`clone`, `to_vec`) makes. -/
def CoinEntry.nodes : CoinEntry → Nat
  | one _ _ => 1
  | two _ l r => 1 + l.nodes + r.nodes

/-- lib/src/block/huffman/package_merge.rs:110-122 `flatten`, counted. -/
def CoinEntry.flattenC : CoinEntry → Cost (List Coin)
  | one _ c => do
    tick 1
    pure [c]
  | two _ l r => do
    tick 1
    let left ← l.flattenC
    let right ← r.flattenC
    tick right.length
    pure (left ++ right)

/-- lib/src/block/huffman/package_merge.rs:93-95, counted. -/
def flattenAllC : List CoinEntry → Cost (List (List Coin))
  | [] => pure []
  | e :: rest => do
    tick 1
    let x ← e.flattenC
    let more ← flattenAllC rest
    pure (x :: more)

/-- lib/src/block/huffman/package_merge.rs:85-91, counted: both entries of a pair are copied. -/
def mergePairsC : List CoinEntry → Cost (List CoinEntry)
  | l :: r :: rest => do
    tick (1 + l.nodes + r.nodes)
    let more ← mergePairsC rest
    pure (CoinEntry.two (l.value + r.value) l r :: more)
  | _ => pure []

/-- lib/src/block/huffman/package_merge.rs:58-60 (sorting the coins of one exponent) and 69-92 (one round of the loop),
counted; `last` is a copy of the list, and the two filters look at all of it. -/
def packageRoundC (coins : List Coin) (e : Nat) (toMerge : List CoinEntry) :
    Cost (List CoinEntry × List CoinEntry) := do
  let list ← sortC CoinEntry.le
    ((coins.filter (fun c => c.exponent = e)).map (fun c => CoinEntry.one c.value c))
  tick (1 + toMerge.length)
  let list ← sortC CoinEntry.le (list ++ toMerge)
  tick ((list.map CoinEntry.nodes).sum + 2 * list.length)
  let merged ← mergePairsC list
  pure (list, merged)

/-- lib/src/block/huffman/package_merge.rs:69-92, counted. -/
def packageLoopC (coins : List Coin) : Nat → List CoinEntry → Cost (List CoinEntry)
  | 0, toMerge => do
    let (list, _) ← packageRoundC coins 0 toMerge
    pure list
  | e + 1, toMerge => do
    let (_, merged) ← packageRoundC coins (e + 1) toMerge
    packageLoopC coins e merged

/-- lib/src/block/huffman/package_merge.rs:38-96 `package_merge`, counted. -/
def packageMergeC (coins : List Coin) : Cost (List (List Coin)) := do
  tick coins.length
  let maxExp ← lift (Res.ofOption ((coins.map (fun c => c.exponent)).max?))
  tick ((maxExp + 1) + coins.length + (maxExp + 1) * (maxExp + 1) + 2 * (maxExp + 1))
  let last ← packageLoopC coins maxExp []
  flattenAllC last

/-- lib/src/block/huffman/package_merge.rs:7-34 `compute_lis`, counted. -/
def computeLisC (weights : List Nat) (limit : Nat) : Cost (List Nat) := do
  tick (limit * (1 + weights.length))
  let coins := (List.range limit).flatMap (fun i => weights.map (fun w => (⟨w, i + 1⟩ : Coin)))
  let packages ← packageMergeC coins
  let n ← lift (subU weights.length 1)
  let solution := (packages.take n).flatten
  tick (n + solution.length + weights.length * (1 + solution.length))
  pure (weights.map (fun w => (solution.filter (fun c => c.value = w)).length))

/-- lib/src/block/huffman/huffman_internal.rs:57-103 `compute_huffman`, counted. -/
def computeHuffmanC (freqs : List Nat) : Cost (List CodeTableEntry) := do
  tick (freqs.length + 1)
  let sorted ← sortC (fun x y => x.1 ≤ y.1)
    (freqs.zipIdx.map (fun p => (p.1, HSym.normal (symbolOfIndex p.2))) ++ [(0, HSym.eob)])
  tick (2 * sorted.length)
  let table := breakTies none sorted
  let weights := table.map (fun x => x.1)
  let codeLengths ← computeLisC weights 17
  tick table.length
  pure ((codeLengths.zip table).map (fun p => ⟨p.1, p.2.2⟩))

/-- lib/src/bitwise/bitwriter.rs:143-146 `increment_symbol` (with 68-78, 127-141), counted. -/
def incrementSymbolC (input : List Bit) : Cost (List Bit) := do
  tick input.length
  let out ← lift (incrementSymbol input)
  tick (2 * out.length)
  pure out

/-- lib/src/block/huffman/huffman_internal.rs:124-139, counted: padding and a copy of the code. -/
def canonicalLoopC : List Bit → List CodeTableEntry → Cost (List CanonicalEntry)
  | _, [] => pure []
  | last, entry :: rest => do
    tick 1
    let unpadded ← incrementSymbolC last
    let code := unpadded ++ List.replicate (entry.code - unpadded.length) false
    tick (2 * code.length)
    let more ← canonicalLoopC code rest
    pure (⟨code, entry.symbol⟩ :: more)

/-- lib/src/block/huffman/huffman_internal.rs:109-143 `canonicalize`, counted. -/
def canonicalizeC (table : List CodeTableEntry) : Cost (List CanonicalEntry) := do
  let sorted ← sortC CodeTableEntry.le table
  match sorted with
  | [] => lift Res.panic
  | first :: rest => do
    tick (2 * first.code)
    let last := List.replicate first.code false
    let more ← canonicalLoopC last rest
    sortC (fun x y => x.symbol.rank ≤ y.symbol.rank) (⟨last, first.symbol⟩ :: more)

/-! ### selectors.rs, symbol_map.rs, delta.rs, code_table.rs -/

/-- lib/src/block/selectors.rs:5-17 `create_selectors`, counted. -/
def createSelectorsC (selectors : List UInt8) : Cost (List Bit × Nat) := do
  let (encoded, _) ← mtfC selectors
  tick (encoded.length + (unaryCode encoded).length)
  pure (unaryCode encoded, selectors.length)

/-- lib/src/block/symbol_map.rs:3-43 `get_symbol_table`, counted: two copies are sorted; new regions have 16 flags. -/
def getSymbolTableC (table : List UInt8) : Cost (List Bit) := do
  tick (2 * (table.length + table.length * table.length))
  tick (16 + table.length + 16 * 16)
  let out := getSymbolTable table
  tick (16 + 2 * out.length)
  pure out

/-- lib/src/block/code_table.rs:23-52 `encode_bit_lengths` (with delta.rs:20-57), counted. -/
def encodeBitLengthsC (codeLengths : List UInt8) : Cost (List Bit) := do
  tick codeLengths.length
  match encodeDelta codeLengths with
  | none => pure []
  | some (start, deltas) => do
    tick (codeLengths.length + 2 * deltas.length)
    let head := convertToCodePadToNBits start.toNat 5
    let body := deltas.flatMap deltaBits
    tick (3 * head.length + 2 * body.length)
    pure (head ++ body)

/-- lib/src/block/code_table.rs:14-21 `encode_code_table`, counted, with the copy of the table that
lib/src/block/block_encoder.rs:65 makes. -/
def encodeCodeTableC (table : List CanonicalEntry) : Cost (List Bit) := do
  tick (table.map (fun e => 2 + e.code.length)).sum
  encodeBitLengthsC (table.map (fun e => UInt8.ofNat e.code.length))

/-! ### block_encoder.rs -/

/-- lib/src/block/block_encoder.rs:55-58, counted. -/
def codeTablesC : List (List Nat) → Cost (List (List CanonicalEntry))
  | [] => pure []
  | freqs :: rest => do
    tick 1
    let t ← computeHuffmanC freqs
    let c ← canonicalizeC t
    let more ← codeTablesC rest
    pure (c :: more)

/-- lib/src/block/block_encoder.rs:63-67, 81-83, counted: the bits of every tree are copied and appended. -/
def encodeCodeTablesC : List (List CanonicalEntry) → Cost (List Bit)
  | [] => pure []
  | table :: rest => do
    tick 1
    let bits ← encodeCodeTableC table
    tick (2 * bits.length)
    let more ← encodeCodeTablesC rest
    pure (bits ++ more)

/-- lib/src/block/block_encoder.rs:91-96 and 102-111, counted: the search for a symbol in the table. -/
def findEntryC (symbol : HSym) : List CanonicalEntry → Cost (Option CanonicalEntry)
  | [] => pure none
  | e :: rest => do
    tick 1
    if e.symbol == symbol then pure (some e) else findEntryC symbol rest

/-- lib/src/block/block_encoder.rs:86-97, counted: the code is copied and appended. -/
def encodeSymbolsC (tables : List (List CanonicalEntry)) (selected : List UInt8) :
    List ZleSymbol → Nat → Cost (List Bit)
  | [], _ => pure []
  | symbol :: rest, position => do
    tick 1
    let table ← lift (tableAt tables selected position)
    let entry ← findEntryC (HSym.normal symbol) table
    let code := match entry with
      | some e => e.code
      | none => []
    tick (2 * code.length)
    let more ← encodeSymbolsC tables selected rest (position + 1)
    pure (code ++ more)

/-- lib/src/block/block_encoder.rs:33-49, counted. -/
def zleWithStrategyC (dist : Distance) (strategy : Strategy) (encoded : List UInt8) (numUsed : Nat) :
    Cost (List ZleSymbol × ReportedSymbols) := do
  tick (numUsed + 1)
  match strategy with
  | Strategy.blockWise numClusters numIterations =>
    zleTransformC (blockWiseReporterC dist numClusters numIterations) (BlockWiseMap.create numUsed) encoded
  | Strategy.single => zleTransformC singleReporterC (SingleMap.create numUsed) encoded

/-- lib/src/block/block_encoder.rs:51-112, counted. -/
def emitBlockC (checksum : BitVec 32) (origPtr : Nat) (used : List UInt8) (zle : List ZleSymbol)
    (reported : ReportedSymbols) : Cost (List Bit) := do
  let tables ← codeTablesC reported.frequencies
  let (selectorBits, numSelectors) ← createSelectorsC reported.selectors
  let symbolMap ← getSymbolTableC used
  let trees ← encodeCodeTablesC tables
  let header := blockHeader checksum origPtr
  tick (4 * header.length + symbolMap.length)
  let numTables := convertToCodePadToNBits tables.length 3
  let numSelectorBits ← lift (convertToCodePadTo15Bits (UInt16.ofNat numSelectors))
  tick (3 * numTables.length + 3 * numSelectorBits.length + selectorBits.length)
  let payload ← encodeSymbolsC tables reported.selectors zle 0
  let lastTable ← lift (tableAt tables reported.selectors zle.length)
  let eobEntry ← findEntryC HSym.eob lastTable
  let eob ← lift (Res.ofOption eobEntry)
  tick (2 * eob.code.length)
  pure (header ++ symbolMap ++ numTables ++ numSelectorBits ++ selectorBits ++ trees ++ payload ++ eob.code)

/-- lib/src/block/block_encoder.rs:24-113 `generate_block_data`, counted; block sorting as counted in Model/Steps.lean. -/
def generateBlockDataC (dist : Distance) (strategy : Strategy) (checksum : BitVec 32)
    (rleData : List UInt8) : Cost (List Bit) := do
  let (bwtData, origPtr) ← (bwtC rleData 0 : Cost (List UInt8 × Nat))
  let (encoded, used) ← mtfC bwtData
  let (zle, reported) ← zleWithStrategyC dist strategy encoded used.length
  emitBlockC checksum origPtr used zle reported

end Ribzip2
