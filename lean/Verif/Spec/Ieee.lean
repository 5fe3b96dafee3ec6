import Verif.Spec.KMeans
/- IEEE 754 binary32, stated by its set of values. -/
namespace Ribzip2.Spec

/-- The finite numbers of binary32 (`f32`): at most 24 significant bits, the last one worth between `2^-149` and
`2^104`. -/
def IsBinary32 (x : ℚ) : Prop :=
  ∃ (m : ℕ) (e : ℤ), m < 2 ^ 24 ∧ -149 ≤ e ∧ e ≤ 104 ∧ |x| = m * 2 ^ e

/-- `x` is a nearest number of binary32 to `q`. -/
def NearestBinary32 (q x : ℚ) : Prop := IsBinary32 x ∧ ∀ y, IsBinary32 y → |x - q| ≤ |y - q|

/-- `x` has an even significand: written with all the 24 bits it can have, the last one is 0. -/
def EvenBinary32 (x : ℚ) : Prop :=
  ∃ (m : ℕ) (e : ℤ), m ≤ 2 ^ 23 ∧ -149 ≤ e ∧ (e = -149 ∨ 2 ^ 22 ≤ m) ∧ |x| = (2 * m : ℕ) * 2 ^ e

end Ribzip2.Spec
