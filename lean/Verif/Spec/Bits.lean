/- Specification vocabulary: numbers and bytes as bit strings, most significant bit first.
Nothing here mentions the model. -/
namespace Ribzip2.Spec

/-- The `n` low bits of `x`, most significant first. -/
def natToBits : Nat → Nat → List Bool
  | 0, _ => []
  | n + 1, x => x.testBit n :: natToBits n x

/-- The number written by a bit string, most significant bit first. -/
def bitsToNat : List Bool → Nat
  | [] => 0
  | b :: bs => b.toNat * 2 ^ bs.length + bitsToNat bs

/-- The 8 bits of a byte. -/
def byteBits (b : UInt8) : List Bool := natToBits 8 b.toNat

/-- The bits of a byte string. -/
def bytesBits (bs : List UInt8) : List Bool := bs.flatMap byteBits

/-- `t` is `s` followed by fewer than 8 zero bits filling up the last byte. -/
def PaddedTo8 (s t : List Bool) : Prop :=
  ∃ k, k < 8 ∧ t = s ++ List.replicate k false ∧ 8 ∣ t.length

end Ribzip2.Spec
