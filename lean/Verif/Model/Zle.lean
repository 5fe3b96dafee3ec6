import Verif.Model.Basic
/- Model of lib/src/block/zle.rs. -/
namespace Ribzip2

/-- lib/src/block/zle.rs:5-10 `enum ZleSymbol`. -/
inductive ZleSymbol where
  | runA
  | runB
  | number (n : UInt8)
  deriving Repr, DecidableEq

/-- lib/src/block/zle.rs:12-54 the order `RunA < RunB < Number(0) < Number(1) < ...`, by rank. -/
def ZleSymbol.rank : ZleSymbol → Nat
  | runA => 0
  | runB => 1
  | number n => 2 + n.toNat

/-- lib/src/block/zle.rs:56-61 `convert_remainder`. -/
def convertRemainder (input : Nat) : ZleSymbol :=
  if input = 0 then ZleSymbol.runA else ZleSymbol.runB

/-- The loop of lib/src/block/zle.rs:67-71 (`(num as u8) & 1` is `num % 2`); fuel as in `lsbLoop`. -/
def zeroDigits : Nat → Nat → List ZleSymbol
  | 0, _ => []
  | fuel + 1, num =>
    if num > 0 then convertRemainder (num % 2) :: zeroDigits fuel (num / 2) else []

/-- lib/src/block/zle.rs:63-73 `encode_zero_amount`. -/
def encodeZeroAmount (numberOfZeros : Nat) : List ZleSymbol :=
  (zeroDigits (numberOfZeros + 1) (numberOfZeros + 1)).dropLast

/-- lib/src/block/symbol_statistics/mod.rs:138-141 `struct ReportedSymbols`. -/
structure ReportedSymbols where
  frequencies : List (List Nat)
  selectors : List UInt8
  deriving Repr, DecidableEq

/-- lib/src/block/symbol_statistics/mod.rs:133-136 `trait SymbolReporter`, as a record of
functions on the reporter state `σ`. -/
structure SymbolReporter (σ : Type) where
  report : σ → ZleSymbol → Res σ
  finalize : σ → Res ReportedSymbols

/-- `for x in symbols { symbol_reporter.report_symbol(x) }`. -/
def reportAll {σ : Type} (rep : SymbolReporter σ) : σ → List ZleSymbol → Res σ
  | s, [] => Res.ok s
  | s, x :: xs => do
    let s' ← rep.report s x
    reportAll rep s' xs

/-- The loop of lib/src/block/zle.rs:81-96 followed by lines 97-103; state: pending zeros, result so
far, reporter. -/
def zleLoop {σ : Type} (rep : SymbolReporter σ) :
    List UInt8 → Nat → List ZleSymbol → σ → Res (List ZleSymbol × σ)
  | [], zeroCount, result, s =>
    if zeroCount > 0 then do
      let enc := encodeZeroAmount zeroCount
      let s' ← reportAll rep s enc
      pure (result ++ enc, s')
    else Res.ok (result, s)
  | i :: rest, zeroCount, result, s =>
    if i = 0 then zleLoop rep rest (zeroCount + 1) result s
    else do
      let (result, s) ←
        if zeroCount > 0 then do
          let enc := encodeZeroAmount zeroCount
          let s' ← reportAll rep s enc
          pure (result ++ enc, s')
        else Res.ok (result, s)
      let s ← rep.report s (ZleSymbol.number i)
      zleLoop rep rest 0 (result ++ [ZleSymbol.number i]) s

/-- lib/src/block/zle.rs:75-109 `zle_transform` (line 106 reports a `RunA` in place of the
end-of-block symbol). -/
def zleTransform {σ : Type} (rep : SymbolReporter σ) (s0 : σ) (input : List UInt8) :
    Res (List ZleSymbol × ReportedSymbols) := do
  let (result, s) ← zleLoop rep input 0 [] s0
  let s ← rep.report s ZleSymbol.runA
  let r ← rep.finalize s
  pure (result, r)

/-- lib/src/block/zle.rs:133-148 `decode_zero_amount` on 64-bit `usize`: `number <<= 1` silently
drops the top bit, `number - 1` underflows when the number is 0.  The check of line 119/127 is included:
`vec![0u8; n]` panics ("capacity overflow") for `n` above `isize::MAX`. -/
def decodeZeroAmount (input : List ZleSymbol) : Res Nat :=
  let number := (ZleSymbol.runB :: input.reverse).foldl
    (fun number bit => (number * 2) % 2 ^ 64 + (if bit = ZleSymbol.runB then 1 else 0)) 0
  do
    let n ← subU number 1
    if n < 2 ^ 63 then pure n else Res.panic

/-- The loop of lib/src/block/zle.rs:114-125 followed by lines 126-129. -/
def decodeZleLoop : List ZleSymbol → List ZleSymbol → List UInt8 → Res (List UInt8)
  | [], zeros, output =>
    if zeros.isEmpty then Res.ok output
    else do
      let n ← decodeZeroAmount zeros
      pure (output ++ List.replicate n 0)
  | ZleSymbol.number element :: rest, zeros, output =>
    if zeros.isEmpty then decodeZleLoop rest [] (output ++ [element])
    else do
      let n ← decodeZeroAmount zeros
      decodeZleLoop rest [] (output ++ List.replicate n 0 ++ [element])
  | sym :: rest, zeros, output => decodeZleLoop rest (zeros ++ [sym]) output

/-- lib/src/block/zle.rs:111-131 `decode_zle`.  Allocation failure for huge runs (below the limit above) is not modelled. -/
def decodeZle (input : List ZleSymbol) : Res (List UInt8) := decodeZleLoop input [] []

end Ribzip2
