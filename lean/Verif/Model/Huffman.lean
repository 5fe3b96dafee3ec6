import Verif.Model.Bitwise
import Verif.Model.Zle
import Verif.Model.SymbolMap
/- Model of lib/src/block/huffman/{package_merge,huffman_internal,reader}.rs. -/
namespace Ribzip2

/-! ### package_merge.rs -/

/-- lib/src/block/huffman/package_merge.rs:98-102 `struct Coin`. -/
structure Coin where
  value : Nat
  exponent : Nat
  deriving Repr, DecidableEq

/-- lib/src/block/huffman/package_merge.rs:104-128 `struct CoinEntry` / `enum CoinEntryType`; each
node stores its cached `numismatic_value`. -/
inductive CoinEntry where
  | one (value : Nat) (coin : Coin)
  | two (value : Nat) (left right : CoinEntry)
  deriving Repr, DecidableEq

/-- The field `numismatic_value`. -/
def CoinEntry.value : CoinEntry → Nat
  | one v _ => v
  | two v _ _ => v

/-- lib/src/block/huffman/package_merge.rs:110-122 `flatten`. -/
def CoinEntry.flatten : CoinEntry → List Coin
  | one _ c => [c]
  | two _ l r => l.flatten ++ r.flatten

/-- `x.numismatic_value.cmp(&y.numismatic_value)` as a "less or equal" test. -/
def CoinEntry.le (x y : CoinEntry) : Bool := x.value ≤ y.value

/-- lib/src/block/huffman/package_merge.rs:75-91: `evens.zip(odds)` are the consecutive pairs of the
list (a last unpaired entry is dropped), each merged into one entry. -/
def mergePairs : List CoinEntry → List CoinEntry
  | l :: r :: rest => CoinEntry.two (l.value + r.value) l r :: mergePairs rest
  | _ => []

/-- lib/src/block/huffman/package_merge.rs:48-60: the list stored in the map under exponent `e`. -/
def coinsAt (coins : List Coin) (e : Nat) : List CoinEntry :=
  stableSort CoinEntry.le
    ((coins.filter (fun c => c.exponent = e)).map (fun c => CoinEntry.one c.value c))

/-- The loop of lib/src/block/huffman/package_merge.rs:69-92 over the exponents `e, e-1, ..., 0`;
returns the last list. -/
def packageLoop (coins : List Coin) : Nat → List CoinEntry → List CoinEntry
  | 0, toMerge => stableSort CoinEntry.le (coinsAt coins 0 ++ toMerge)
  | e + 1, toMerge =>
    packageLoop coins e (mergePairs (stableSort CoinEntry.le (coinsAt coins (e + 1) ++ toMerge)))

/-- lib/src/block/huffman/package_merge.rs:38-96 `package_merge` (`max().unwrap()` panics without
coins). -/
def packageMerge (coins : List Coin) : Res (List (List Coin)) := do
  let maxExp ← Res.ofOption ((coins.map (fun c => c.exponent)).max?)
  pure ((packageLoop coins maxExp []).map CoinEntry.flatten)

/-- lib/src/block/huffman/package_merge.rs:7-34 `compute_lis`. -/
def computeLis (weights : List Nat) (limit : Nat) : Res (List Nat) := do
  let coins := (List.range limit).flatMap (fun i => weights.map (fun w => (⟨w, i + 1⟩ : Coin)))
  let packages ← packageMerge coins
  let n ← subU weights.length 1
  let solution := (packages.take n).flatten
  pure (weights.map (fun w => (solution.filter (fun c => c.value = w)).length))

/-! ### huffman_internal.rs -/

/-- lib/src/block/huffman/huffman_internal.rs:10-14 `HuffmanSymbol<ZleSymbol>`. -/
inductive HSym where
  | normal (s : ZleSymbol)
  | eob
  deriving Repr, DecidableEq

/-- Rank of a symbol in the derived order of lib/src/block/huffman/huffman_internal.rs:10
(`NormalSymbol(_) < EoB`, then the order of `ZleSymbol`). -/
def HSym.rank : HSym → Nat
  | normal s => s.rank
  | eob => 1000

/-- lib/src/block/huffman/huffman_internal.rs:16-20 `CodeTableEntry`: code length and symbol. -/
structure CodeTableEntry where
  code : Nat
  symbol : HSym
  deriving Repr, DecidableEq

/-- lib/src/block/huffman/huffman_internal.rs:22-26 `CanonicalCodeTableEntry`. -/
structure CanonicalEntry where
  code : List Bit
  symbol : HSym
  deriving Repr, DecidableEq

/-- lib/src/block/huffman/huffman_internal.rs:28-46 the order of `CodeTableEntry`: by code length,
then by symbol. -/
def CodeTableEntry.le (x y : CodeTableEntry) : Bool :=
  x.code < y.code || (x.code == y.code && x.symbol.rank ≤ y.symbol.rank)

/-- lib/src/block/symbol_statistics/mod.rs:148-159 `IntoFrequencyTable::iterate`. -/
def symbolOfIndex (i : Nat) : ZleSymbol :=
  match i with
  | 0 => ZleSymbol.runA
  | 1 => ZleSymbol.runB
  | x => ZleSymbol.number (UInt8.ofNat (x - 1))

/-- lib/src/block/huffman/huffman_internal.rs:60-73: the frequency table with the end-of-block
symbol, sorted (stably) by frequency. -/
def sortedFrequencies (freqs : List Nat) : List (Nat × HSym) :=
  stableSort (fun x y => x.1 ≤ y.1)
    (freqs.zipIdx.map (fun p => (p.1, HSym.normal (symbolOfIndex p.2))) ++ [(0, HSym.eob)])

/-- lib/src/block/huffman/huffman_internal.rs:76-86, breaking ties: `last` is the previous
(already adjusted) frequency. -/
def breakTies : Option Nat → List (Nat × HSym) → List (Nat × HSym)
  | _, [] => []
  | none, (f, s) :: rest => (f, s) :: breakTies (some f) rest
  | some last, (f, s) :: rest =>
    let f' := if last ≥ f then f + (last - f + 1) else f
    (f', s) :: breakTies (some f') rest

/-- lib/src/block/huffman/huffman_internal.rs:57-103 `compute_huffman`. -/
def computeHuffman (freqs : List Nat) : Res (List CodeTableEntry) := do
  let table := breakTies none (sortedFrequencies freqs)
  let weights := table.map (fun x => x.1)
  let codeLengths ← computeLis weights 17
  pure ((codeLengths.zip table).map (fun p => ⟨p.1, p.2.2⟩))

/-- The loop of lib/src/block/huffman/huffman_internal.rs:124-139. -/
def canonicalLoop : List Bit → List CodeTableEntry → Res (List CanonicalEntry)
  | _, [] => Res.ok []
  | last, entry :: rest => do
    let unpadded ← incrementSymbol last
    let code := unpadded ++ List.replicate (entry.code - unpadded.length) false
    let more ← canonicalLoop code rest
    pure (⟨code, entry.symbol⟩ :: more)

/-- lib/src/block/huffman/huffman_internal.rs:109-143 `canonicalize`. -/
def canonicalize (table : List CodeTableEntry) : Res (List CanonicalEntry) :=
  match stableSort CodeTableEntry.le table with
  | [] => Res.panic
  | first :: rest => do
    let last := List.replicate first.code false
    let more ← canonicalLoop last rest
    pure (stableSort (fun x y => x.symbol.rank ≤ y.symbol.rank) (⟨last, first.symbol⟩ :: more))

/-- lib/src/block/huffman/huffman_internal.rs:145-165 `from_weights`: `len - 3` panics on underflow
(as does, in a release build, the conversion `u8::try_from(x).unwrap()` that follows), and
`u8::try_from(x).unwrap() + 1u8` panics for `x ≥ 255`. -/
def fromWeights (codeLengths : List UInt8) : Res (List CodeTableEntry) := do
  let k ← subU codeLengths.length 3
  if k ≤ 255 then
    let symbols := [HSym.normal ZleSymbol.runA, HSym.normal ZleSymbol.runB]
      ++ (List.range k).map (fun x => HSym.normal (ZleSymbol.number (UInt8.ofNat (x + 1))))
      ++ [HSym.eob]
    pure ((symbols.zip codeLengths).map (fun p => ⟨p.2.toNat, p.1⟩))
  else Res.panic

/-! ### reader.rs -/

/-- lib/src/block/huffman/reader.rs:49-59 `read_from_table`. -/
def readFromTable (table : List CanonicalEntry) (symbols : List Bit) : Option HSym :=
  (table.find? (fun e => e.code == symbols)).map (fun e => e.symbol)

/-- The loop of lib/src/block/huffman/reader.rs:28-44. -/
def readSymbolsLoop (table : List CanonicalEntry) (maxNumber : Nat) :
    Nat → BitReader → List ZleSymbol → List Bit → Nat → Res (List ZleSymbol × BitReader)
  | 0, _, _, _, _ => Res.div
  | fuel + 1, br, all, current, symbolsRead => do
    let (bits, br) ← br.readBits 1
    let current := current ++ bits
    match readFromTable table current with
    | some (HSym.normal symbol) =>
      let all := all ++ [symbol]
      if symbolsRead + 1 = maxNumber then pure (all, br)
      else readSymbolsLoop table maxNumber fuel br all [] (symbolsRead + 1)
    | some HSym.eob => pure (all, br)
    | none =>
      if symbolsRead = maxNumber then pure (all, br)
      else readSymbolsLoop table maxNumber fuel br all current symbolsRead

/-- lib/src/block/huffman/reader.rs:19-46 `read_symbols`. -/
def readSymbols (br : BitReader) (table : List CanonicalEntry) (maxNumber : Nat) :
    Res (List ZleSymbol × BitReader) :=
  readSymbolsLoop table maxNumber br.fuel br [] [] 0

/-- lib/src/block/code_table.rs:14-21 `encode_code_table` (`code.len() as u8`). -/
def encodeCodeTable (table : List CanonicalEntry) : List Bit :=
  encodeBitLengths (table.map (fun e => UInt8.ofNat e.code.length))

end Ribzip2
