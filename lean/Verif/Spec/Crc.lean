import Verif.Spec.Bits
/- Specification: the CRC-32 of bzip2, computed bit by bit, and the combination of block CRCs. -/
namespace Ribzip2.Spec

/-- Feed one bit into the shift register with feedback polynomial 0x04C11DB7. -/
def crcBit (reg : BitVec 32) (b : Bool) : BitVec 32 :=
  if reg.msb != b then (reg <<< 1) ^^^ 0x04C11DB7#32 else reg <<< 1

/-- CRC of a bit string: initial value and final xor all ones. -/
def crcBits (bits : List Bool) : BitVec 32 := (bits.foldl crcBit 0xFFFFFFFF#32) ^^^ 0xFFFFFFFF#32

/-- CRC of a byte string: bits of each byte most significant first. -/
def crc32 (bytes : List UInt8) : BitVec 32 := crcBits (bytesBits bytes)

/-- Combined CRC of a stream: rotate left by one, xor the next block's CRC. -/
def combine (crcs : List (BitVec 32)) : BitVec 32 :=
  crcs.foldl (fun total crc => (total.rotateLeft 1) ^^^ crc) 0#32

end Ribzip2.Spec
