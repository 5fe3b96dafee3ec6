import Verif.Spec.Format
/- Vocabulary for the options of the command line: what can be seen in a compressed block. -/
namespace Ribzip2.Spec

/-- The bits of a block after its checksum announce `n` code tables. -/
def AnnouncesTables (n : Nat) (body : List Bool) : Prop :=
  ∃ (ptr : Nat) (used : List UInt8) (rest : List Bool),
    body = [false] ++ natToBits 24 ptr ++ symbolMapBits used ++ natToBits 3 n ++ rest

/-- The bits of a block after its checksum announce `n` code tables, and each of its groups of symbols uses
the first of them. -/
def UsesFirstTable (n : Nat) (body : List Bool) : Prop :=
  ∃ (ptr : Nat) (used : List UInt8) (groups : Nat) (rest : List Bool), 1 ≤ groups ∧
    body = [false] ++ natToBits 24 ptr ++ symbolMapBits used ++ natToBits 3 n
      ++ natToBits 15 groups ++ List.replicate groups false ++ rest

/-- `file` is a compressed file with the content `data`, all of whose blocks have the property `P`. -/
def BlocksAll (P : List Bool → Prop) (data : List UInt8) (file : List UInt8) : Prop :=
  ∃ blocks : List (List UInt8 × List Bool), contents blocks = data ∧ (∀ b ∈ blocks, P b.2) ∧
    PaddedTo8 (streamHeader 0x39 ++ blockFrames blocks ++ footerMagic
      ++ natToBits 32 (streamCrc blocks).toNat) (bytesBits file)

end Ribzip2.Spec
