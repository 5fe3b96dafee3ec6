import Verif.Spec.Strict
/- Specification of two further deviations from the bzip2 format, that a decoder overlooks if its arithmetic wraps around:
a selector that is coded with 256 or more ones, and a code length that passes below 0. -/
namespace Ribzip2.Spec

/-- `bits`, the bits of a stream behind the checksum of a block, contain after the start of the block
* fewer selectors than announced, and then 256 ones, or
* the selectors, fewer tables than announced, the beginning of a further table that leads to a code length of 0 before the
  last length, and then a further decrement. -/
inductive BlockWraps (bits : List Bool) : Prop where
  | selector (s : BlockStart) (positions : List Nat) (rest : List Bool) : s.Fits → positions.length < s.numSelectors →
      bits = s.bits ++ positions.flatMap unary ++ List.replicate 256 true ++ rest → BlockWraps bits
  | length (s : BlockStart) (sel : List Nat) (selBits : List Bool) (tables : List (List Nat)) (tableBits : List (List Bool))
      (hi : Nat) (lengths : List Nat) (walk rest : List Bool) : s.Fits →
      sel.length = s.numSelectors → SelectorBits s.numTables sel selBits →
      tables.length < s.numTables → (∀ ls ∈ tables, ls.length = s.used.length + 2) →
      List.Forall₂ (fun ls b => ∃ hi, LengthTable 0 hi ls b) tables tableBits →
      lengths.length < s.used.length + 2 → LengthTable 0 hi (lengths ++ [0]) (walk ++ [false]) →
      bits = s.bits ++ selBits ++ tableBits.flatten ++ walk ++ [true, true] ++ rest → BlockWraps bits

/-- There is a block with such a deviation, after blocks `blocks`. -/
def StreamWraps (bytes : List UInt8) : Prop :=
  ∃ (level : Nat) (blocks : List (List UInt8 × List Bool)) (crc : BitVec 32) (bits : List Bool),
    1 ≤ level ∧ level ≤ 9 ∧ (∀ b ∈ blocks, ValidBody (100000 * level) b.1 b.2) ∧
    bytesBits bytes = streamHeader (UInt8.ofNat (0x30 + level)) ++ blockFrames blocks ++ blockMagic
      ++ natToBits 32 crc.toNat ++ bits ∧ BlockWraps bits

end Ribzip2.Spec
