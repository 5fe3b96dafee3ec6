import Verif.Spec.Mtf
/- Specification of the transmission of table selectors: move-to-front positions over the list of
all tables `0..n-1`, each in unary. -/
namespace Ribzip2.Spec

/-- Unary code: `i` ones and a zero. -/
def unary (i : Nat) : List Bool := List.replicate i true ++ [false]

/-- The bits transmit the selectors `sel` for `n` tables. -/
def SelectorBits (n : Nat) (sel : List Nat) (bits : List Bool) : Prop :=
  ∃ positions, mtfDecode (List.range n) positions = some sel ∧ bits = positions.flatMap unary

end Ribzip2.Spec
