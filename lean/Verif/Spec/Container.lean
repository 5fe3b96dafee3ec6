import Verif.Spec.Crc
/- Specification of the outer layout of a bzip2 stream. -/
namespace Ribzip2.Spec

/-- 48-bit block magic. -/
def blockMagic : List Bool := bytesBits [0x31, 0x41, 0x59, 0x26, 0x53, 0x59]

/-- 48-bit end-of-stream magic. -/
def footerMagic : List Bool := bytesBits [0x17, 0x72, 0x45, 0x38, 0x50, 0x90]

/-- `BZh` and a level byte. -/
def streamHeader (level : UInt8) : List Bool := bytesBits [0x42, 0x5a, 0x68, level]

/-- A block as it appears in the container: magic, the CRC of its content `data`, and a `body`. -/
def blockFrame (data : List UInt8) (body : List Bool) : List Bool :=
  blockMagic ++ natToBits 32 (crc32 data).toNat ++ body

/-- Consecutive blocks: each is a content and the bits after its CRC field. -/
def blockFrames (blocks : List (List UInt8 × List Bool)) : List Bool :=
  blocks.flatMap fun b => blockFrame b.1 b.2

/-- The content of consecutive blocks. -/
def contents (blocks : List (List UInt8 × List Bool)) : List UInt8 :=
  blocks.flatMap fun b => b.1

/-- The combined CRC of consecutive blocks. -/
def streamCrc (blocks : List (List UInt8 × List Bool)) : BitVec 32 :=
  combine (blocks.map fun b => crc32 b.1)

end Ribzip2.Spec
