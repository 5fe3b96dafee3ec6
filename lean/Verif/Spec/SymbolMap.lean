import Verif.Spec.Mtf
/- Specification of the symbol map of a block: 16 bits telling which ranges of 16 bytes are used,
then 16 bits for each used range. -/
namespace Ribzip2.Spec

/-- Some byte of the range `16 r .. 16 r + 15` is in `U`. -/
def rangeUsed (U : List UInt8) (r : Nat) : Bool := U.any fun b => b.toNat / 16 == r

/-- The symbol map of the set `U` of bytes. -/
def symbolMapBits (U : List UInt8) : List Bool :=
  (List.range 16).map (rangeUsed U) ++
  ((List.range 16).filter (rangeUsed U)).flatMap fun r =>
    (List.range 16).map fun j => decide (UInt8.ofNat (16 * r + j) ∈ U)

end Ribzip2.Spec
