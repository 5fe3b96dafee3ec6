/- Specification of the Burrows-Wheeler transform and of suffix arrays. The order `≤` on byte strings
is the lexicographic order of Lean's core library (a proper prefix comes first). -/
namespace Ribzip2.Spec

/-- The rotation of `s` that starts at position `k`. -/
def rotation (s : List UInt8) (k : Nat) : List UInt8 := s.drop k ++ s.take k

/-- All rotations of `s`. -/
def rotations (s : List UInt8) : List (List UInt8) := (List.range s.length).map (rotation s)

/-- `(last, ptr)` is the transform of `s`: the last column of the sorted matrix of all rotations, and a
row of the matrix that holds `s` itself. -/
def IsBwt (s last : List UInt8) (ptr : Nat) : Prop :=
  ∃ rows : List (List UInt8), rows.Perm (rotations s) ∧ rows.Pairwise (· ≤ ·) ∧
    last = rows.map (fun r => r.getLastD 0) ∧ rows[ptr]? = some s

/-- `sa` is the suffix array of `s` with the empty suffix: all positions `0..=n`, in the order of their
suffixes. -/
def IsSuffixArray (s : List UInt8) (sa : List Nat) : Prop :=
  sa.Perm (List.range (s.length + 1)) ∧ sa.Pairwise fun i j => s.drop i < s.drop j

/-- `f` is where the smallest non-empty suffix of `s` starts. -/
def SmallestSuffixAt (s : List UInt8) (f : Nat) : Prop :=
  f < s.length ∧ ∀ p < s.length, s.drop f ≤ s.drop p

/-- `k` is the start of a minimal rotation. -/
def MinimalRotationAt (s : List UInt8) (k : Nat) : Prop :=
  k < s.length ∧ ∀ p < s.length, rotation s k ≤ rotation s p

/-- For `r`, the order of the suffixes also orders the rotations. -/
def SuffixesOrderRotations (r : List UInt8) : Prop :=
  ∀ i < r.length, ∀ j < r.length, r.drop i < r.drop j → rotation r i ≤ rotation r j

/-- The suffixes of `s`, rotated to its smallest suffix, come in the same order as the rotations they
start. -/
def TransformSafe (s : List UInt8) : Prop :=
  ∀ f, SmallestSuffixAt s f → SuffixesOrderRotations (rotation s f)

end Ribzip2.Spec
