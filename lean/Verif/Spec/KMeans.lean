import Mathlib.Data.Rat.Floor
import Verif.Spec.Format
import Verif.Spec.Optimal
/- Vocabulary for the clustering: exact rational arithmetic, no floating point. -/
namespace Ribzip2.Spec

/-- A non-negative number with at most 24 significant bits (a value of `f32`, the range of exponents left out). -/
def IsF32 (x : ℚ) : Prop := ∃ (m : ℕ) (e : ℤ), m < 2 ^ 24 ∧ x = m * 2 ^ e

/-- Squared Euclidean distance of a centre and a point. -/
def sqDist (centre : List ℚ) (point : List ℕ) : ℚ :=
  ((centre.zip point).map fun x => (x.1 - (x.2 : ℚ)) ^ 2).sum

/-- The points assigned to cluster `j`. -/
def cluster (data : List (List ℕ)) (assignment : List ℕ) (j : ℕ) : List (List ℕ) :=
  ((data.zip assignment).filter fun x => x.2 == j).map Prod.fst

/-- Mean of the `i`-th coordinates of some points (0 if there are none). -/
def meanAt (points : List (List ℕ)) (i : ℕ) : ℚ :=
  (((points.map fun p => p.getD i 0).sum : ℕ) : ℚ) / points.length

/-- Every point is assigned to a centre none other is closer than, up to a relative error `ε` of the squared
distances. -/
def NearestUpTo (ε : ℚ) (data : List (List ℕ)) (centres : List (List ℚ)) (assignment : List ℕ) : Prop :=
  assignment.length = data.length ∧
  ∀ x ∈ data.zip assignment, x.2 < centres.length ∧ ∀ c ∈ centres, ∀ own, centres[x.2]? = some own →
    sqDist own x.1 ≤ (1 + ε) * sqDist c x.1

/-- Every centre is the mean of its cluster up to a relative error `ε` in each coordinate. -/
def MeansUpTo (ε : ℚ) (dimension clusters : ℕ) (data : List (List ℕ)) (assignment : List ℕ) (centres : List (List ℚ)) :
    Prop :=
  centres.length = clusters ∧ ∀ (j : ℕ) (c : List ℚ), centres[j]? = some c → c.length = dimension ∧
    ∀ (i : ℕ) (x : ℚ), c[i]? = some x →
      |x - meanAt (cluster data assignment j) i| ≤ ε * meanAt (cluster data assignment j) i

/-- The result of `n` rounds of Lloyd's algorithm from given centres: in each round every point is assigned to a
nearest centre, then every centre is moved to the mean of its cluster. -/
inductive Lloyd (ε δ : ℚ) (dimension clusters : ℕ) (data : List (List ℕ)) (start : List (List ℚ)) :
    ℕ → List (List ℚ) → List ℕ → Prop
  | first {assignment centres} : NearestUpTo ε data start assignment →
      MeansUpTo δ dimension clusters data assignment centres → Lloyd ε δ dimension clusters data start 1 centres assignment
  | next {n centres assignment centres' assignment'} : Lloyd ε δ dimension clusters data start n centres assignment →
      NearestUpTo ε data centres assignment' → MeansUpTo δ dimension clusters data assignment' centres' →
      Lloyd ε δ dimension clusters data start (n + 1) centres' assignment'

/-- Groups of 50; the last group has fewer than 50 elements (and may be empty). -/
def groupsOf50 {α : Type} (l : List α) : List (List α) :=
  if 50 ≤ l.length then l.take 50 :: groupsOf50 (l.drop 50) else [l]
  termination_by l.length
  decreasing_by simp; omega

/-- For each group of 50 symbols, how often each of the symbols `0 .. n-1` occurs in it. -/
def groupCounts (n : ℕ) (syms : List ℕ) : List (List ℕ) :=
  (groupsOf50 syms).map fun g => (List.range n).map fun s => g.count s

/-- The points the clustering starts from: `clusters` of them, evenly spaced. -/
def startPoints (clusters : ℕ) (data : List (List ℕ)) : List (List ℚ) :=
  (List.range clusters).map fun j => (data.getD (j * data.length / clusters) []).map Nat.cast

/-- The code lengths `ls` (the last for the end-of-block symbol) are made from a centre: nearly optimal for its
frequencies, scaled by 10000. -/
def MadeFrom (centre : List ℚ) (ls : List ℕ) : Prop :=
  ∃ freqs : List ℕ, List.Forall₂ (fun (x : ℚ) (f : ℕ) => |(f : ℚ) - 10000 * x| ≤ 2) centre freqs ∧ NearOptimal (freqs ++ [0]) ls

/-- The code tables of a block and the selectors come from `rounds` rounds of Lloyd's algorithm with `clusters`
clusters on the symbol counts of the groups (the statistics count one more RUNA, in place of the end of the
block). -/
structure BlockParts.Tuned (p : BlockParts) (clusters rounds : ℕ) : Prop where
  used : p.used.Pairwise (· < ·)
  symbols : ∀ s ∈ p.syms, s < p.eob
  transmitted : List.Forall₂ (LengthTable 1 20) p.tables p.tableBits
  codes : ∀ ls ∈ p.tables, ls.length = p.used.length + 2 ∧ KraftLe 20 ls
  selectors : ∃ positions : List ℕ, positions.length = p.sel.length ∧ p.selBits = positions.flatMap unary
  clustered : ∃ centres,
    Lloyd (1 / 10000) (1 / 100) (p.used.length + 1) clusters (groupCounts (p.used.length + 1) (p.syms ++ [0]))
      (startPoints clusters (groupCounts (p.used.length + 1) (p.syms ++ [0]))) rounds centres p.sel ∧
    List.Forall₂ MadeFrom centres p.tables

/-- The bits of a block after its checksum are those of a tuned block. -/
def TunedBody (clusters rounds : ℕ) (body : List Bool) : Prop :=
  ∃ p : BlockParts, p.Tuned clusters rounds ∧ body = p.body

end Ribzip2.Spec
