import Verif.Spec.Bits
/- Specification of the transmission of code lengths: a 5-bit start value, then for each symbol a
sequence of steps `10` (one more) and `11` (one less), ended by `0`. -/
namespace Ribzip2.Spec

/-- From the current value `c` the bits lead to the value `l`; all values stay in `lo..hi`. -/
inductive LengthSteps (lo hi : Nat) : Nat → Nat → List Bool → Prop where
  | done {c : Nat} : lo ≤ c → c ≤ hi → LengthSteps lo hi c c [false]
  | inc {c l : Nat} {bs : List Bool} : lo ≤ c → c ≤ hi → LengthSteps lo hi (c + 1) l bs →
      LengthSteps lo hi c l (true :: false :: bs)
  | dec {c l : Nat} {bs : List Bool} : lo ≤ c + 1 → c + 1 ≤ hi → LengthSteps lo hi c l bs →
      LengthSteps lo hi (c + 1) l (true :: true :: bs)

/-- Starting from the value `c` the bits give the lengths of the list, one after the other. -/
inductive LengthsFrom (lo hi : Nat) : Nat → List Nat → List Bool → Prop where
  | nil {c : Nat} : LengthsFrom lo hi c [] []
  | cons {c l : Nat} {ls : List Nat} {b1 b2 : List Bool} : LengthSteps lo hi c l b1 →
      LengthsFrom lo hi l ls b2 → LengthsFrom lo hi c (l :: ls) (b1 ++ b2)

/-- The bits transmit the code lengths `ls`. -/
def LengthTable (lo hi : Nat) (ls : List Nat) (bits : List Bool) : Prop :=
  ∃ start b, start < 32 ∧ bits = natToBits 5 start ++ b ∧ LengthsFrom lo hi start ls b

end Ribzip2.Spec
