import Verif.Model.Zle
/- Model of lib/src/block/symbol_statistics/mod.rs and kmeansclustering.rs. -/
namespace Ribzip2

/-! ### `f32`

Non-negative binary32 numbers are represented by their exact rational value; every operation is the
exact operation followed by `f32Round`, round-to-nearest-even to 24 significant bits (IEEE 754).
Simplification: the exponent range is not bounded; property C71 proves that this makes no difference
(`Verif.Model.Ieee` models the same code with the bounded range). -/

/-- `2^e` for an integer exponent. -/
def pow2 (e : Int) : Rat :=
  if 0 ≤ e then ((2 ^ e.toNat : Nat) : Rat) else 1 / ((2 ^ (-e).toNat : Nat) : Rat)

/-- Largest `e` with `2^e ≤ q`, for `q > 0`. -/
def ilog2 (q : Rat) : Int :=
  let e : Int := (Nat.log2 q.num.toNat : Int) - (Nat.log2 q.den : Int)
  if pow2 e ≤ q then e else e - 1

/-- Nearest integer, ties to even. -/
def roundHalfEven (q : Rat) : Int :=
  let f := q.floor
  let r := q - (f : Rat)
  if r < 1 / 2 then f else if 1 / 2 < r then f + 1 else if f % 2 = 0 then f else f + 1

/-- Rounding of a non-negative real to binary32. -/
def f32Round (q : Rat) : Rat :=
  if q ≤ 0 then 0
  else
    let u := pow2 (ilog2 q - 23)
    (roundHalfEven (q / u) : Rat) * u

/-- `n as f32`. -/
def f32OfNat (n : Nat) : Rat := f32Round (n : Rat)

/-- `a / b` on `f32`. -/
def f32Div (a b : Rat) : Rat := f32Round (a / b)

/-- `a * b` on `f32`. -/
def f32Mul (a b : Rat) : Rat := f32Round (a * b)

/-- `a + b` on `f32`. -/
def f32Add (a b : Rat) : Rat := f32Round (a + b)

/-! ### SinglePropabilityMap -/

/-- lib/src/block/symbol_statistics/mod.rs:37-45, 84-95: index of a symbol's counter. -/
def symbolIndex : ZleSymbol → Nat
  | ZleSymbol.runA => 0
  | ZleSymbol.runB => 1
  | ZleSymbol.number i => i.toNat + 1

/-- lib/src/block/symbol_statistics/mod.rs:20-23 `SinglePropabilityMap`. -/
structure SingleMap where
  frequencies : List Nat
  symbolCount : Nat
  deriving Repr, DecidableEq

/-- lib/src/block/symbol_statistics/mod.rs:26-31 `create`. -/
def SingleMap.create (size : Nat) : SingleMap := ⟨List.replicate (size + 1) 0, 0⟩

/-- lib/src/block/symbol_statistics/mod.rs:35-48 `report_symbol`. -/
def SingleMap.report (s : SingleMap) (sym : ZleSymbol) : Res SingleMap := do
  let c ← idx s.frequencies (symbolIndex sym)
  let fs ← setIdx s.frequencies (symbolIndex sym) (c + 1)
  pure ⟨fs, s.symbolCount + 1⟩

/-- lib/src/block/symbol_statistics/mod.rs:50-58 `finalize`: the table twice, and
`(symbol_count as f32 / 50.0).ceil() as usize` selectors of value 0. -/
def SingleMap.finalize (s : SingleMap) : Res ReportedSymbols :=
  Res.ok ⟨[s.frequencies, s.frequencies],
    List.replicate (f32Div (f32OfNat s.symbolCount) 50).ceil.toNat 0⟩

/-- The `SymbolReporter` implementation for `SinglePropabilityMap`. -/
def singleReporter : SymbolReporter SingleMap := ⟨SingleMap.report, SingleMap.finalize⟩

/-! ### kmeansclustering.rs -/

/-- The type of lib/src/block/symbol_statistics/kmeansclustering.rs:93-99 `euclidean_distance`. The
clustering takes the distance as a parameter: the positive theorems hold for every distance, so that
they do not depend on floating point; `euclid` below is the distance of the program. -/
abbrev Distance := List Rat → List Nat → Rat

/-- Integer square root (largest `r < 2^bits` with `r * r ≤ n`), bit by bit. -/
def isqrtLoop (n : Nat) : Nat → Nat → Nat
  | 0, r => r
  | bits + 1, r => if (r + 2 ^ bits) * (r + 2 ^ bits) ≤ n then isqrtLoop n bits (r + 2 ^ bits) else isqrtLoop n bits r

/-- `x.sqrt()` on non-negative `f32`: the exact root rounded to nearest. The argument is scaled by
`4^s` to more than 60 bits, the integer root `r` taken, and a half added when it is not exact: the true
root lies strictly between `r` and `r + 1`, and these 30-bit integers contain all rounding boundaries. -/
def f32Sqrt (q : Rat) : Rat :=
  if q ≤ 0 then 0
  else
    let s : Int := 32 - ilog2 q / 2
    let n := q * (pow2 s * pow2 s)
    let r := isqrtLoop n.floor.toNat 34 0
    f32Round ((if (r * r : Nat) = n then (r : Rat) else (r : Rat) + 1 / 2) / pow2 s)

/-- lib/src/block/symbol_statistics/kmeansclustering.rs:93-99 `euclidean_distance`: `powi(2)` is one
multiplication, `sum` adds from the left. The sign of a difference is dropped: it does not change the
square. -/
def euclid : Distance := fun v1 v2 =>
  f32Sqrt ((((v1.zip v2).map fun p =>
    let d := f32Round (if p.1 < f32OfNat p.2 then f32OfNat p.2 - p.1 else p.1 - f32OfNat p.2)
    f32Mul d d)).foldl f32Add 0)

/-- The loop over the centers, lib/src/block/symbol_statistics/kmeansclustering.rs:41-53: `best` is `(min_distance,
min_assignment)`. -/
def nearestLoop (dist : Distance) (point : List Nat) : List (List Rat) → Nat → Option Rat → Nat → Nat
  | [], _, _, assignment => assignment
  | center :: rest, clusterNumber, minDistance, assignment =>
    let distance := dist center point
    match minDistance with
    | some m =>
      if distance < m then nearestLoop dist point rest (clusterNumber + 1) (some distance) clusterNumber
      else nearestLoop dist point rest (clusterNumber + 1) (some m) assignment
    | none => nearestLoop dist point rest (clusterNumber + 1) (some distance) clusterNumber

/-- lib/src/block/symbol_statistics/kmeansclustering.rs:37-56: assignments of all points (`min_assignment as u8`). -/
def assignAll (dist : Distance) (data : List (List Nat)) (centers : List (List Rat)) : List UInt8 :=
  data.map (fun point => UInt8.ofNat (nearestLoop dist point centers 0 none 0))

/-- lib/src/block/symbol_statistics/kmeansclustering.rs:68-74: running mean of one center with one more point. -/
def updateCenter (center : List Rat) (clusterSize : Nat) (point : List Nat) : List Rat :=
  (center.zip point).map (fun p =>
    f32Div (f32Add (f32Mul p.1 (f32OfNat clusterSize)) (f32OfNat p.2))
      (f32Add (f32OfNat clusterSize) 1)) ++ center.drop point.length

/-- lib/src/block/symbol_statistics/kmeansclustering.rs:66-76: update of the centers. -/
def updateLoop : List (List Nat × UInt8) → List (List Rat) → List Nat → Res (List (List Rat))
  | [], centers, _ => Res.ok centers
  | (point, a) :: rest, centers, sizes => do
    let size ← idx sizes a.toNat
    let center ← idx centers a.toNat
    let centers ← setIdx centers a.toNat (updateCenter center size point)
    let sizes ← setIdx sizes a.toNat (size + 1)
    updateLoop rest centers sizes

/-- lib/src/block/symbol_statistics/kmeansclustering.rs:35-77: the iterations of Lloyd's algorithm. -/
def lloyd (dist : Distance) (dimension numClusters : Nat) (data : List (List Nat)) :
    Nat → List (List Rat) → List UInt8 → Res (List (List Rat) × List UInt8)
  | 0, centers, assignments => Res.ok (centers, assignments)
  | it + 1, centers, _ => do
    let assignments := assignAll dist data centers
    let cleared := centers.map (fun _ => List.replicate dimension (0 : Rat))
    let centers ← updateLoop (data.zip assignments) cleared (List.replicate numClusters 0)
    lloyd dist dimension numClusters data it centers assignments

/-- lib/src/block/symbol_statistics/kmeansclustering.rs:23-31: the initial centers. -/
def initialCenters (data : List (List Nat)) (numClusters : Nat) : Nat → Res (List (List Rat))
  | 0 => Res.ok []
  | k + 1 => do
    let prev ← initialCenters data numClusters k
    let point ← idx data (k * data.length / numClusters)
    pure (prev ++ [point.map f32OfNat])

/-- lib/src/block/symbol_statistics/kmeansclustering.rs:20-90 `solve`: (means, assignments). -/
def kmeansSolve (dist : Distance) (dimension : Nat) (data : List (List Nat))
    (numIterations numClusters : Nat) : Res (List (List Nat) × List UInt8) := do
  let centers ← initialCenters data numClusters numClusters
  let (centers, assignments) ←
    lloyd dist dimension numClusters data numIterations centers (List.replicate data.length 0)
  pure (centers.map (fun c => c.map (fun x => (f32Mul x 10000).floor.toNat)), assignments)

/-! ### BlockWisePropabilityMap -/

/-- lib/src/block/symbol_statistics/mod.rs:61-68 `BlockWisePropabilityMap`; the parameters
`num_iterations`, `num_clusters` are passed to `blockWiseReporter`. -/
structure BlockWiseMap where
  current : List Nat
  maps : List (List Nat)
  size : Nat
  counter : Nat
  deriving Repr, DecidableEq

/-- lib/src/block/symbol_statistics/mod.rs:71-80 `create`. -/
def BlockWiseMap.create (size : Nat) : BlockWiseMap := ⟨List.replicate (size + 1) 0, [], size, 0⟩

/-- lib/src/block/symbol_statistics/mod.rs:84-104 `report_symbol` (the counters are `u8`). -/
def BlockWiseMap.report (s : BlockWiseMap) (sym : ZleSymbol) : Res BlockWiseMap := do
  let c ← idx s.current (symbolIndex sym)
  let c ← if c + 1 < 256 then Res.ok (c + 1) else Res.panic
  let current ← setIdx s.current (symbolIndex sym) c
  if s.counter + 1 ≥ 50 then
    pure { s with current := List.replicate (s.size + 1) 0, maps := s.maps ++ [current], counter := 0 }
  else pure { s with current := current, counter := s.counter + 1 }

/-- lib/src/block/symbol_statistics/mod.rs:106-130 `finalize`. -/
def BlockWiseMap.finalize (dist : Distance) (numClusters numIterations : Nat) (s : BlockWiseMap) :
    Res ReportedSymbols := do
  let (means, assignments) ←
    kmeansSolve dist (s.size + 1) (s.maps ++ [s.current]) numIterations numClusters
  pure ⟨means, assignments⟩

/-- The `SymbolReporter` implementation for `BlockWisePropabilityMap`. -/
def blockWiseReporter (dist : Distance) (numClusters numIterations : Nat) :
    SymbolReporter BlockWiseMap :=
  ⟨BlockWiseMap.report, BlockWiseMap.finalize dist numClusters numIterations⟩

end Ribzip2
