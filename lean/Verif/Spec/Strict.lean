import Verif.Spec.Format
/- Specification of the deviations from the bzip2 format that a lenient decoder may overlook. A block is described in three
steps, each of which only makes sense if the bits before it have been understood: what stands in front of the selectors
(`BlockStart`), the selectors and code tables (`BlockTables`), and the coded groups of symbols. -/
namespace Ribzip2.Spec

/-- What stands in a block between its checksum and its selectors. -/
structure BlockStart where
  /-- the flag of blocks that were randomised (deprecated long ago) -/
  randomised : Bool
  /-- row of the block among the sorted rotations -/
  ptr : Nat
  /-- for each of the 16 ranges of 16 byte values that is announced as used: which of its values are used -/
  ranges : List (Option (List Bool))
  numTables : Nat
  numSelectors : Nat

/-- The byte is marked as used. -/
def BlockStart.marks (s : BlockStart) (b : UInt8) : Bool :=
  ((s.ranges.getD (b.toNat / 16) none).getD []).getD (b.toNat % 16) false

/-- The bytes that are marked as used, in increasing order. -/
def BlockStart.used (s : BlockStart) : List UInt8 := allBytes.filter s.marks

/-- The values fit into their fields. -/
structure BlockStart.Fits (s : BlockStart) : Prop where
  ptr : s.ptr < 2 ^ 24
  ranges : s.ranges.length = 16
  range : ∀ r, some r ∈ s.ranges → r.length = 16
  numTables : s.numTables < 2 ^ 3
  numSelectors : s.numSelectors < 2 ^ 15

/-- The bits of this part. -/
def BlockStart.bits (s : BlockStart) : List Bool :=
  [s.randomised] ++ natToBits 24 s.ptr ++ s.ranges.map Option.isSome ++ s.ranges.flatMap (fun r => r.getD [])
  ++ natToBits 3 s.numTables ++ natToBits 15 s.numSelectors

/-- What the format does not allow there, although the fields can hold it. -/
def BlockStart.Deviates (s : BlockStart) : Prop :=
  s.randomised = true ∨
  (∃ r, some r ∈ s.ranges ∧ true ∉ r) ∨
  s.numTables < 2 ∨ 6 < s.numTables ∨
  s.numSelectors = 0

/-- The selectors and the code tables of a block, with their bits. -/
structure BlockTables where
  sel : List Nat
  selBits : List Bool
  tables : List (List Nat)
  tableBits : List (List Bool)

/-- They are what the start of the block announces; code lengths may be any numbers. -/
structure BlockTables.Fits (t : BlockTables) (s : BlockStart) : Prop where
  numSelectors : t.sel.length = s.numSelectors
  selected : SelectorBits s.numTables t.sel t.selBits
  numTables : t.tables.length = s.numTables
  lengths : ∀ ls ∈ t.tables, ls.length = s.used.length + 2
  transmitted : List.Forall₂ (fun ls b => ∃ hi, LengthTable 0 hi ls b) t.tables t.tableBits

/-- The bits of this part. -/
def BlockTables.bits (t : BlockTables) : List Bool := t.selBits ++ t.tableBits.flatten

/-- What the format does not allow there: a code length that is not in 1..20, be it only on the way to another one, and
lengths that no prefix code has. -/
def BlockTables.Deviates (t : BlockTables) : Prop :=
  ¬ List.Forall₂ (LengthTable 1 20) t.tables t.tableBits ∨ ∃ ls ∈ t.tables, ¬ KraftLe 20 ls

/-- The bits of a group of symbols that uses the code lengths `ls`: a group of fewer than 50 symbols is ended by the
end-of-block symbol. -/
def groupBits (eob : Nat) (ls : List Nat) (group : List Nat) : List Bool :=
  group.flatMap (codeBits ls) ++ if group.length < 50 then codeBits ls eob else []

/-- The groups fit the start and the tables of the block. -/
structure GroupsFit (s : BlockStart) (t : BlockTables) (groups : List (List Nat)) : Prop where
  number : groups.length = t.sel.length
  size : ∀ g ∈ groups, g.length ≤ 50
  symbols : ∀ g ∈ groups, ∀ x ∈ g, x < s.used.length + 1

/-- The bits of the groups. -/
def payloadOf (s : BlockStart) (t : BlockTables) (groups : List (List Nat)) : List Bool :=
  (List.zipWith (fun i g => groupBits (s.used.length + 1) (t.tables.getD i []) g) t.sel groups).flatten

/-- The end-of-block symbol stands in the last group and nowhere else. -/
def EndsOnce (groups : List (List Nat)) : Prop :=
  ∃ full last, groups = full ++ [last] ∧ last.length < 50 ∧ ∀ g ∈ full, g.length = 50

/-- What the format does not allow in the groups of a block of at most `limit` bytes: the end-of-block symbol is missing or
stands before the last group, the block is too large, the transformed block is none of any block, or (the format allows
this) a repeat count of the run-length encoding is followed by bytes equal to it. -/
def GroupsDeviate (limit : Nat) (s : BlockStart) (groups : List (List Nat)) : Prop :=
  ¬ EndsOnce groups ∨
  limit < (zleDecode 1 groups.flatten).length ∨
  (∃ last, mtfDecode s.used (zleDecode 1 groups.flatten) = some last ∧ ∀ rle, ¬ IsBwt rle last s.ptr) ∨
  (∃ last rle, mtfDecode s.used (zleDecode 1 groups.flatten) = some last ∧ IsBwt rle last s.ptr ∧ countHazard rle = true)

/-- `bits`, the bits of a stream of level `level` behind the checksum of a block, begin with something that the format does
not allow, or with a block with a repeat count followed by bytes equal to it. -/
inductive BlockDeviates (level : Nat) (bits : List Bool) : Prop where
  | start (s : BlockStart) (rest : List Bool) : s.Fits → bits = s.bits ++ rest → s.Deviates → BlockDeviates level bits
  | tables (s : BlockStart) (t : BlockTables) (rest : List Bool) : s.Fits → t.Fits s →
      bits = s.bits ++ t.bits ++ rest → t.Deviates → BlockDeviates level bits
  | groups (s : BlockStart) (t : BlockTables) (groups : List (List Nat)) (rest : List Bool) : s.Fits → t.Fits s →
      GroupsFit s t groups → bits = s.bits ++ t.bits ++ payloadOf s t groups ++ rest →
      GroupsDeviate (100000 * level) s groups → BlockDeviates level bits

/-- The bytes are no valid stream for one of the following reasons (or have a block with a repeat count followed by bytes
equal to it): the level is none, there is a deviation in a block, after blocks `blocks`, or behind the end-of-stream magic
stands something else than the right checksum and up to seven zero bits. -/
inductive StreamDeviates (bytes : List UInt8) : Prop where
  | level (level : UInt8) (rest : List UInt8) : bytes = 0x42 :: 0x5a :: 0x68 :: level :: rest →
      (level < 0x31 ∨ 0x39 < level) → StreamDeviates bytes
  | block (level : Nat) (blocks : List (List UInt8 × List Bool)) (crc : BitVec 32) (bits : List Bool) :
      1 ≤ level → level ≤ 9 → (∀ b ∈ blocks, ValidBody (100000 * level) b.1 b.2) →
      bytesBits bytes = streamHeader (UInt8.ofNat (0x30 + level)) ++ blockFrames blocks ++ blockMagic
        ++ natToBits 32 crc.toNat ++ bits → BlockDeviates level bits → StreamDeviates bytes
  | footer (level : Nat) (blocks : List (List UInt8 × List Bool)) (tail : List Bool) :
      1 ≤ level → level ≤ 9 → (∀ b ∈ blocks, ValidBody (100000 * level) b.1 b.2) →
      bytesBits bytes = streamHeader (UInt8.ofNat (0x30 + level)) ++ blockFrames blocks ++ footerMagic ++ tail →
      (∀ k < 8, tail ≠ natToBits 32 (streamCrc blocks).toNat ++ List.replicate k false) → StreamDeviates bytes

end Ribzip2.Spec
