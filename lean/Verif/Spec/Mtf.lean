/- Specification of move-to-front coding. -/
namespace Ribzip2.Spec

/-- Decode a sequence of positions: each position is replaced by the element found there, which is
then moved to the front.  `none` for a position outside the list. -/
def mtfDecode {α : Type} : List α → List Nat → Option (List α)
  | _, [] => some []
  | dict, i :: is =>
    match dict[i]? with
    | none => none
    | some v =>
      match mtfDecode (v :: dict.eraseIdx i) is with
      | none => none
      | some rest => some (v :: rest)

/-- All 256 bytes in increasing order. -/
def allBytes : List UInt8 := (List.range 256).map UInt8.ofNat

/-- The distinct bytes of a string, in increasing order. -/
def usedBytes (d : List UInt8) : List UInt8 := allBytes.filter (fun b => decide (b ∈ d))

end Ribzip2.Spec
