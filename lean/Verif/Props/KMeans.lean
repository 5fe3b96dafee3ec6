import Verif.Proofs.KMeansBlock
import Verif.Props.Options
/- Property C68: the block-wise strategy is k-means clustering. -/
namespace Ribzip2
open Spec

/-- **C68.** With the strategy `BlockWise` the code tables and the table of each group of 50 symbols come, in
every block, from Lloyd's algorithm on the symbol counts of the groups: with as many clusters and rounds as asked
for, every group assigned in each round to a nearest centre (squared distances up to 0.01%), every centre the mean
of its groups (up to 1%), and every code table nearly optimal for its centre. -/
theorem C68_tables_by_clustering (d : List UInt8) (t nc it : ℕ) (ht : 1 ≤ t) (hnc : 1 ≤ nc) (h7 : nc ≤ 7) (hit : 1 ≤ it) :
    ∃ bytes, encodeBytes euclid d t (Strategy.blockWise nc it) = Res.ok bytes ∧ BlocksAll (TunedBody nc it) d bytes :=
  encodeBytes_blocksAll euclid (Strategy.blockWise nc it) (TunedBody nc it) (body_tuned nc it hnc (by omega) hit) d t ht

/-- **C68** on the command line: `compress f k-means` with `--iterations` (3 by default) and `--num-tables`. -/
theorem C68_command_line (threads : Option Nat) (numCpus : Nat) (ht : ThreadsOk threads numCpus)
    (iterations numTables : Option Nat) (n it : Nat) (hn : numTables = some n ∨ numTables = none ∧ n = 6)
    (hi : iterations = some it ∨ iterations = none ∧ it = 3) (h1 : 1 ≤ n) (h7 : n ≤ 7) (hit : 1 ≤ it) (data : List UInt8) :
    Compresses threads numCpus (some (kMeansOf iterations numTables)) (BlocksAll (TunedBody n it) data) data := by
  have hs : cliStrategy (some (kMeansOf iterations numTables)) = Strategy.blockWise n it := by
    rcases hn with rfl | ⟨rfl, rfl⟩ <;> rcases hi with rfl | ⟨rfl, rfl⟩ <;> rfl
  obtain ⟨bytes, k1, k2⟩ := C68_tables_by_clustering data (cliThreads threads numCpus) n it (threadsOk_pos ht) h1 h7 hit
  exact compresses_of _ _ ht _ _ _ bytes (by rw [hs]; exact k1) k2

/-- The clustering itself, for all data of the size that occurs (at most 25000 points with at most 400 counters of at
most 50). -/
theorem C68_clustering (d nc it : ℕ) (hnc : 1 ≤ nc) (h256 : nc ≤ 256) (hd : d ≤ 400) (hit : 1 ≤ it)
    (data : List (List ℕ)) (hne : data ≠ []) (hdata : ∀ p ∈ data, p.length = d ∧ ∀ y ∈ p, y ≤ 50)
    (hlen : data.length ≤ 25000) :
    ∃ means sel centres, kmeansSolve euclid d data it nc = Res.ok (means, sel) ∧
      Lloyd (1 / 10000) (1 / 100) d nc data (startPoints nc data) it centres (sel.map UInt8.toNat) ∧
      List.Forall₂ (List.Forall₂ fun (x : ℚ) (f : ℕ) => |(f : ℚ) - 10000 * x| ≤ 2) centres means := by
  obtain ⟨means, sel, k1, -⟩ := kmeansSolve_ok euclid d nc it hnc data hne (fun p hp => (hdata p hp).1)
  obtain ⟨centres, h1, h2⟩ := kmeansSolve_lloyd d nc it hnc h256 hd hit data hne hdata hlen means sel k1
  exact ⟨means, sel, centres, k1, h1, h2⟩

/-- The arithmetic the clustering uses rounds to the nearest `f32`, to the even one in a tie. -/
theorem C68_rounding (q : ℚ) (hq : 0 ≤ q) : IsF32 (f32Round q) ∧ ∀ y, IsF32 y → |f32Round q - q| ≤ |y - q| ∧
    (0 < q → y ≠ f32Round q → |f32Round q - q| = |y - q| →
      ∃ (m : ℕ) (e : ℤ), 2 ^ 22 ≤ m ∧ m ≤ 2 ^ 23 ∧ f32Round q = (2 * m : ℕ) * 2 ^ e) :=
  ⟨f32Round_isF32 q, fun y hy => ⟨f32Round_nearest q hq y hy, fun h0 hne h => f32Round_tie q h0 y hy hne h⟩⟩

/-- Its square root is the `f32` nearest to the root: the root lies on its side of the midpoint to any other. -/
theorem C68_square_root (q : ℚ) (hq : 0 < q) : IsF32 (f32Sqrt q) ∧ ∀ y, IsF32 y →
    (f32Sqrt q < y → q ≤ ((f32Sqrt q + y) / 2) ^ 2) ∧ (y < f32Sqrt q → ((f32Sqrt q + y) / 2) ^ 2 ≤ q) :=
  ⟨f32Sqrt_isF32 q, fun y hy => f32Sqrt_nearest q hq y hy⟩

/-- A case: four groups with two counters, two clusters, two rounds. The groups (50, 0) and (48, 2) go to the first
cluster, the groups (1, 49) and (3, 47) to the second; the tables are the means times 10000. -/
example : kmeansSolve euclid 2 [[50, 0], [48, 2], [1, 49], [3, 47]] 2 2
    = Res.ok ([[490000, 10000], [20000, 480000]], [0, 0, 1, 1]) := by decide +kernel

example : f32Sqrt 2 = 11863283 / 2 ^ 23 ∧ f32Round (1 / 3) = 11184811 / 2 ^ 25 := by decide +kernel

/-- A centre that is not nearest, and a mean that is off, are told apart by the specification. -/
example : ¬ NearestUpTo (1 / 10000) [[50, 0]] [[50, 0], [0, 50]] [1] := by
  rintro ⟨-, h⟩
  have := (h ([50, 0], 1) (by simp)).2 [50, 0] (by simp) [0, 50] rfl
  norm_num [sqDist] at this

example : ¬ MeansUpTo (1 / 100) 1 1 [[4], [8]] [0, 0] [[4]] := by
  rintro ⟨-, h⟩
  have := (h 0 [4] rfl).2 0 4 rfl
  norm_num [cluster, meanAt] at this

/-- The hypotheses are met. -/
example : ∃ bytes, encodeBytes euclid [3, 1, 2, 2, 7] 4 (Strategy.blockWise 6 3) = Res.ok bytes ∧
    BlocksAll (TunedBody 6 3) [3, 1, 2, 2, 7] bytes :=
  C68_tables_by_clustering _ 4 6 3 (by omega) (by omega) (by omega) (by omega)

end Ribzip2
