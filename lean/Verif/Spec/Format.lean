import Batteries.Data.List.Basic
import Verif.Spec.Container
import Verif.Spec.Rle
import Verif.Spec.Mtf
import Verif.Spec.Zle
import Verif.Spec.SymbolMap
import Verif.Spec.Selectors
import Verif.Spec.Lengths
import Verif.Spec.Huffman
import Verif.Spec.Bwt
/- Specification of the bzip2 format as a relation between contents and bits; nothing here mentions the
library.  Not covered: the obsolete "randomised" blocks (the bit is 0 here). -/
namespace Ribzip2.Spec

/-- The coded symbols: from position `k` of the block on, the symbols of each group of 50 consecutive
positions are written with the table (list of code lengths) chosen by the selector of the group. -/
def payloadBits (tables : List (List Nat)) (sel : List Nat) : Nat → List Nat → List Bool
  | _, [] => []
  | k, s :: rest => codeBits (tables.getD (sel.getD (k / 50) 0) []) s ++ payloadBits tables sel (k + 1) rest

/-- Everything an encoder decides about a block. -/
structure BlockParts where
  /-- the run-length encoded block -/
  rle : List UInt8
  /-- last column of the sorted rotations, and the row of the block itself -/
  last : List UInt8
  ptr : Nat
  /-- the byte values declared as used, in increasing order -/
  used : List UInt8
  /-- the symbols of the block without the end-of-block symbol: 0 is RUNA, 1 is RUNB, `v + 1` the
  move-to-front position `v` -/
  syms : List Nat
  /-- code lengths of each table, and the bits that transmit them -/
  tables : List (List Nat)
  tableBits : List (List Bool)
  /-- the table of each group, and the bits that transmit them -/
  sel : List Nat
  selBits : List Bool

/-- The end-of-block symbol. -/
def BlockParts.eob (p : BlockParts) : Nat := p.used.length + 1

/-- The parts fit together: they describe a block of at most `limit` bytes with content `data`. -/
structure BlockParts.Valid (p : BlockParts) (limit : Nat) (data : List UInt8) : Prop where
  content : rle1Decode p.rle = data
  size : p.rle.length ≤ limit
  transform : IsBwt p.rle p.last p.ptr
  ptr : p.ptr < 2 ^ 24
  used : p.used.Pairwise (· < ·)
  mtf : mtfDecode p.used (zleDecode 1 p.syms) = some p.last
  symbols : ∀ s ∈ p.syms, s < p.eob
  numTables : 2 ≤ p.tables.length ∧ p.tables.length ≤ 6
  lengths : ∀ ls ∈ p.tables, ls.length = p.used.length + 2 ∧ KraftLe 20 ls
  transmitted : List.Forall₂ (LengthTable 1 20) p.tables p.tableBits
  numSelectors : p.sel.length < 2 ^ 15
  selected : SelectorBits p.tables.length p.sel p.selBits
  enough : p.syms.length + 1 ≤ 50 * p.sel.length

/-- The bits of a block after its CRC field. -/
def BlockParts.body (p : BlockParts) : List Bool :=
  [false] ++ natToBits 24 p.ptr ++ symbolMapBits p.used ++ natToBits 3 p.tables.length
  ++ natToBits 15 p.sel.length ++ p.selBits ++ p.tableBits.flatten
  ++ payloadBits p.tables p.sel 0 (p.syms ++ [p.eob])

/-- `body` is, after the CRC field, a block of at most `limit` bytes with content `data`. -/
def ValidBody (limit : Nat) (data : List UInt8) (body : List Bool) : Prop :=
  ∃ p : BlockParts, p.Valid limit data ∧ body = p.body

/-- `bytes` is a bzip2 stream of level `level` whose blocks are `blocks` (content and bits after the CRC
field). -/
def StreamOf (level : Nat) (blocks : List (List UInt8 × List Bool)) (bytes : List UInt8) : Prop :=
  1 ≤ level ∧ level ≤ 9 ∧
  PaddedTo8 (streamHeader (UInt8.ofNat (0x30 + level)) ++ blockFrames blocks ++ footerMagic
    ++ natToBits 32 (streamCrc blocks).toNat) (bytesBits bytes)

/-- `bytes` is a valid bzip2 stream for `data`. -/
def ValidStream (data bytes : List UInt8) : Prop :=
  ∃ level blocks, StreamOf level blocks bytes ∧ contents blocks = data ∧
    ∀ b ∈ blocks, ValidBody (100000 * level) b.1 b.2

/-- The parts make a block that can be taken apart again, with move-to-front positions and a pointer that
exist; nothing is said about the checksum, the run-length encoding or the transform (they may describe
rubbish). There is exactly one selector per group. -/
structure BlockParts.WellFormed (p : BlockParts) : Prop where
  ptr : p.ptr < 2 ^ 24
  inBlock : p.ptr < p.last.length
  used : p.used.Pairwise (· < ·)
  mtf : mtfDecode p.used (zleDecode 1 p.syms) = some p.last
  size : p.last.length + 1 ≤ 2 ^ 63
  symbols : ∀ s ∈ p.syms, s < p.eob
  numTables : p.tables.length < 8
  lengths : ∀ ls ∈ p.tables, ls.length = p.used.length + 2 ∧ KraftLe 20 ls
  transmitted : List.Forall₂ (LengthTable 1 20) p.tables p.tableBits
  numSelectors : p.sel.length < 2 ^ 15
  selected : SelectorBits p.tables.length p.sel p.selBits
  enough : p.syms.length + 1 ≤ 50 * p.sel.length
  noSurplus : 50 * p.sel.length < p.syms.length + 51

/-- A repeat count is followed by three bytes equal to it and at least one more byte. -/
def countHazard : List UInt8 → Bool
  | a :: b :: c :: d :: n :: rest =>
    if a = b ∧ a = c ∧ a = d then
      decide (rest.take 3 = [n, n, n] ∧ 4 ≤ rest.length) || countHazard rest
    else countHazard (b :: c :: d :: n :: rest)
  | _ => false

end Ribzip2.Spec
