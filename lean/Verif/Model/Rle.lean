import Verif.Model.Basic
/- Model of lib/src/block/rle.rs. -/
namespace Ribzip2

/-- lib/src/block/rle.rs:1-5 `struct RleResult`. -/
structure RleResult where
  data : List UInt8
  counter : Nat
  lastByte : Option UInt8
  deriving Repr, DecidableEq

/-- One iteration of the loop in lib/src/block/rle.rs:11-30. -/
def rleStep (s : RleResult) (current : UInt8) : RleResult :=
  let counter := s.counter + 1
  match s.lastByte with
  | some lastByte =>
    if lastByte != current || counter > 255 then
      if counter ≥ 5 then
        ⟨s.data ++ List.replicate 4 lastByte ++ [UInt8.ofNat (counter - 5)], 1, some current⟩
      else
        ⟨s.data ++ List.replicate (counter - 1) lastByte, 1, some current⟩
    else ⟨s.data, counter, some current⟩
  | none => ⟨s.data, counter, some current⟩

/-- lib/src/block/rle.rs:7-37 `rle`. -/
def rle (input : List UInt8) (initCounter : Nat) (initLast : Option UInt8) : RleResult :=
  input.foldl rleStep ⟨[], initCounter, initLast⟩

/-- lib/src/block/rle.rs:39-51 `rle_total_size`. -/
def rleTotalSize (inputLen counter : Nat) (last : Option UInt8) : Nat :=
  match last with
  | some _ => if counter ≥ 4 then inputLen + 5 else inputLen + counter
  | none => inputLen

/-- lib/src/block/rle.rs:53-70 `rle_augment`. -/
def rleAugment (input : List UInt8) (counter : Nat) (last : Option UInt8) : List UInt8 :=
  match last with
  | some lastByte =>
    if counter ≥ 4 then input ++ List.replicate 4 lastByte ++ [UInt8.ofNat (counter - 4)]
    else input ++ List.replicate counter lastByte
  | none => input

/-- State of the loop of lib/src/block/rle.rs:72-94: output, `equal_count`, `previous`. -/
structure InvRle where
  output : List UInt8
  equalCount : Nat
  previous : Option UInt8
  deriving Repr, DecidableEq

/-- One iteration of lib/src/block/rle.rs:76-92.  Note that line 91 sets `previous` to the element
just consumed even when that element was a repeat count. -/
def invRleStep (s : InvRle) (el : UInt8) : InvRle :=
  match s.previous with
  | some previous =>
    if s.equalCount = 3 then ⟨s.output ++ List.replicate el.toNat previous, 0, some el⟩
    else if previous == el then ⟨s.output ++ [el], s.equalCount + 1, some el⟩
    else ⟨s.output ++ [el], 0, some el⟩
  | none => ⟨s.output ++ [el], s.equalCount, some el⟩

/-- lib/src/block/rle.rs:72-94 `inverse_rle`. -/
def inverseRle (input : List UInt8) : List UInt8 :=
  (input.foldl invRleStep ⟨[], 0, none⟩).output

end Ribzip2
