import Verif.Model.Bitwise
import Verif.Model.Mtf
/- Model of lib/src/block/symbol_map.rs, lib/src/block/selectors.rs, lib/src/block/delta.rs and
lib/src/block/code_table.rs. -/
namespace Ribzip2

/-! ### symbol_map.rs -/

/-- The loop of lib/src/block/symbol_map.rs:13-25 on `used_symbols_details`.
`value / 16` and `value % 16` are below 16, so the `set`s are in range. -/
def symbolDetails (table : List UInt8) : List (Option (List Bit)) :=
  table.foldl (fun details value =>
    let tableNumber := value.toNat / 16
    let entry := value.toNat % 16
    match details.getD tableNumber none with
    | some given => details.set tableNumber (some (given.set entry true))
    | none => details.set tableNumber (some ((List.replicate 16 false).set entry true)))
    (List.replicate 16 none)

/-- lib/src/block/symbol_map.rs:3-43 `get_symbol_table` (the sorted copies `table2` are unused). -/
def getSymbolTable (table : List UInt8) : List Bit :=
  let details := symbolDetails table
  details.map (fun used => used.isSome) ++ details.flatMap (fun used => used.getD [])

/-- lib/src/block/symbol_map.rs:45-53 `get_used_regions`. -/
def getUsedRegions (input : List Bit) : List Nat :=
  (input.zipIdx.filter (fun x => x.1)).map (fun x => x.2)

/-- lib/src/block/symbol_map.rs:55-65 `get_used_symbols_from_regions`. -/
def getUsedSymbolsFromRegions (regions : List Nat) (input : List Bit) : List UInt8 :=
  ((regions.flatMap (fun x => (List.range 16).map (fun position => (position, x)))).zip input).flatMap
    (fun p => if p.2 then [UInt8.ofNat (p.1.2 * 16 + p.1.1)] else [])

/-- lib/src/block/symbol_map.rs:75-80 `GetSymbolTable::get_symbol_table`. -/
def readSymbolTable (br : BitReader) : Res (List UInt8 × BitReader) := do
  let (index, br) ← br.readBits 16
  let usedRegions := getUsedRegions index
  let (regions, br) ← br.readBits (16 * usedRegions.length)
  pure (getUsedSymbolsFromRegions usedRegions regions, br)

/-! ### selectors.rs -/

/-- The loops of lib/src/block/selectors.rs:9-14. -/
def unaryCode (encoded : List UInt8) : List Bit :=
  encoded.flatMap (fun selector => List.replicate selector.toNat true ++ [false])

/-- lib/src/block/selectors.rs:5-17 `create_selectors`. -/
def createSelectors (selectors : List UInt8) : Res (List Bit × Nat) := do
  let (encoded, _) ← mtf selectors
  pure (unaryCode encoded, selectors.length)

/-- The loop of lib/src/block/selectors.rs:31-44; `current_symbol` is a `u8` (overflow panics). -/
def readUnaryLoop (amount : Nat) :
    Nat → BitReader → List UInt8 → Nat → Nat → Res (List UInt8 × BitReader)
  | 0, _, _, _, _ => Res.div
  | fuel + 1, br, output, currentSymbol, symbolCount => do
    let (bits, br) ← br.readBits 1
    match bits with
    | [true] =>
      if currentSymbol + 1 < 256 then
        if symbolCount ≥ amount then pure (output, br)
        else readUnaryLoop amount fuel br output (currentSymbol + 1) symbolCount
      else Res.panic
    | [false] =>
      let output := output ++ [UInt8.ofNat currentSymbol]
      if symbolCount + 1 ≥ amount then pure (output, br)
      else readUnaryLoop amount fuel br output 0 (symbolCount + 1)
    | _ => Res.err

/-- lib/src/block/selectors.rs:27-46 `read_unary`. -/
def readUnary (br : BitReader) (amount : Nat) : Res (List UInt8 × BitReader) :=
  readUnaryLoop amount br.fuel br [] 0 0

/-! ### delta.rs -/

/-- lib/src/block/delta.rs:14-18 `enum DeltaSymbol`. -/
inductive DeltaSymbol where
  | decrease
  | increase
  | stop
  deriving Repr, DecidableEq

/-- The loop of lib/src/block/delta.rs:29-49. -/
def deltaLoop : UInt8 → List UInt8 → List DeltaSymbol
  | _, [] => []
  | last, current :: rest =>
    let diff : Int := (last.toNat : Int) - (current.toNat : Int)
    (if diff > 0 then List.replicate diff.natAbs DeltaSymbol.decrease
     else if diff < 0 then List.replicate diff.natAbs DeltaSymbol.increase
     else []) ++ [DeltaSymbol.stop] ++ deltaLoop current rest

/-- lib/src/block/delta.rs:20-57 `encode_delta` (`none` is `DeltaEncoded::Empty`). -/
def encodeDelta (input : List UInt8) : Option (UInt8 × List DeltaSymbol) :=
  match input with
  | [] => none
  | value :: rest => some (value, DeltaSymbol.stop :: deltaLoop value rest)

/-! ### code_table.rs -/

/-- lib/src/block/code_table.rs:38-46. -/
def deltaBits : DeltaSymbol → List Bit
  | DeltaSymbol.decrease => [true, true]
  | DeltaSymbol.increase => [true, false]
  | DeltaSymbol.stop => [false]

/-- lib/src/block/code_table.rs:23-52 `encode_bit_lengths`. -/
def encodeBitLengths (codeLengths : List UInt8) : List Bit :=
  match encodeDelta codeLengths with
  | none => []
  | some (start, deltas) => convertToCodePadToNBits start.toNat 5 ++ deltas.flatMap deltaBits

/-- The loop of lib/src/block/code_table.rs:67-81 (`start -= 1` panics on underflow). -/
def readDeltaLoop (amount : Nat) :
    Nat → BitReader → List UInt8 → Nat → Nat → Res (List UInt8 × BitReader)
  | 0, _, _, _, _ => Res.div
  | fuel + 1, br, out, start, read => do
    let (bits, br) ← br.readBits 1
    match bits with
    | [true] =>
      let (bits, br) ← br.readBits 1
      let start ← match bits with
        | [false] => Res.ok (start + 1)
        | _ => subU start 1
      if read = amount then pure (out, br) else readDeltaLoop amount fuel br out start read
    | _ =>
      let out := out ++ [UInt8.ofNat start]
      if read + 1 = amount then pure (out, br)
      else readDeltaLoop amount fuel br out start (read + 1)

/-- lib/src/block/code_table.rs:62-83 `read_delta`. -/
def readDelta (br : BitReader) (amount : Nat) : Res (List UInt8 × BitReader) := do
  let (bits, br) ← br.readBits 5
  readDeltaLoop amount br.fuel br [] (convertToNumber bits) 0

end Ribzip2
