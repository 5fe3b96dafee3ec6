import Verif.Model.Stream
/- The floating-point code of lib/src/block/symbol_statistics once more, on IEEE binary32 with its bounded exponent
range: subnormal numbers, overflow to infinity, NaN and signs.  Property C71 shows that it computes the same as the
model of `Verif.Model.Stats`, whose numbers are non-negative and have unbounded exponents. -/
namespace Ribzip2

/-- A value of `f32`.  Simplification: the two zeros are one value (they are equal under every comparison, and no
division by zero of this code could tell them apart). -/
inductive F32 where
  | num (q : Rat)
  | inf (negative : Bool)
  | nan
  deriving Repr, DecidableEq

namespace F32

/-- IEEE 754 roundTiesToEven to binary32: 24 significant bits, the last one not below `2^-149`; magnitudes of
`2^128` and above after rounding become infinite. -/
def round (q : Rat) : F32 :=
  if q = 0 then num 0
  else
    let a := if q < 0 then -q else q
    let u := pow2 (max (ilog2 a) (-126) - 23)
    let r := (roundHalfEven (a / u) : Rat) * u
    if pow2 128 ≤ r then inf (decide (q < 0)) else num (if q < 0 then -r else r)

/-- `n as f32` for an unsigned integer. -/
def ofNat (n : Nat) : F32 := round (n : Rat)

/-- `a + b`. -/
def add : F32 → F32 → F32
  | num a, num b => round (a + b)
  | nan, _ => nan
  | _, nan => nan
  | inf a, inf b => if a = b then inf a else nan
  | inf a, num _ => inf a
  | num _, inf b => inf b

/-- `-a`. -/
def neg : F32 → F32
  | num a => num (-a)
  | inf a => inf (!a)
  | nan => nan

/-- `a - b`. -/
def sub (a b : F32) : F32 := add a (neg b)

/-- `a * b`. -/
def mul : F32 → F32 → F32
  | num a, num b => round (a * b)
  | nan, _ => nan
  | _, nan => nan
  | inf a, inf b => inf (a != b)
  | inf a, num b => if b = 0 then nan else inf (a != decide (b < 0))
  | num a, inf b => if a = 0 then nan else inf (decide (a < 0) != b)

/-- `a / b`. -/
def div : F32 → F32 → F32
  | num a, num b => if b = 0 then (if a = 0 then nan else inf (decide (a < 0))) else round (a / b)
  | nan, _ => nan
  | _, nan => nan
  | inf _, inf _ => nan
  | inf a, num b => inf (a != decide (b < 0))
  | num _, inf _ => num 0

/-- `a.sqrt()`: the root of a finite number is never too large or too small to be represented. -/
def sqrt : F32 → F32
  | num a => if a < 0 then nan else num (f32Sqrt a)
  | inf a => if a then nan else inf false
  | nan => nan

/-- `a < b`; every comparison with NaN is false. -/
def lt : F32 → F32 → Bool
  | num a, num b => decide (a < b)
  | nan, _ => false
  | _, nan => false
  | inf a, inf b => a && !b
  | inf a, num _ => a
  | num _, inf b => !b

/-- `a.ceil()`. -/
def ceil : F32 → F32
  | num a => num (a.ceil : Rat)
  | inf a => inf a
  | nan => nan

/-- `a as usize` (64 bits): truncates, saturates, and maps NaN to 0. -/
def toUsize : F32 → Nat
  | num a => min a.floor.toNat (2 ^ 64 - 1)
  | inf a => if a then 0 else 2 ^ 64 - 1
  | nan => 0

end F32

/-- lib/src/block/symbol_statistics/kmeansclustering.rs:93-99 `euclidean_distance`; `powi(2)` is one multiplication. -/
def euclid32 (v1 : List F32) (v2 : List Nat) : F32 :=
  (((v1.zip v2).map fun p => (p.1.sub (F32.ofNat p.2)).mul (p.1.sub (F32.ofNat p.2))).foldl F32.add (F32.num 0)).sqrt

/-- The loop over the centers, lib/src/block/symbol_statistics/kmeansclustering.rs:41-53. -/
def nearestLoop32 (point : List Nat) : List (List F32) → Nat → Option F32 → Nat → Nat
  | [], _, _, assignment => assignment
  | center :: rest, clusterNumber, minDistance, assignment =>
    let distance := euclid32 center point
    match minDistance with
    | some m =>
      if F32.lt distance m then nearestLoop32 point rest (clusterNumber + 1) (some distance) clusterNumber
      else nearestLoop32 point rest (clusterNumber + 1) (some m) assignment
    | none => nearestLoop32 point rest (clusterNumber + 1) (some distance) clusterNumber

/-- lib/src/block/symbol_statistics/kmeansclustering.rs:37-56: assignments of all points. -/
def assignAll32 (data : List (List Nat)) (centers : List (List F32)) : List UInt8 :=
  data.map (fun point => UInt8.ofNat (nearestLoop32 point centers 0 none 0))

/-- lib/src/block/symbol_statistics/kmeansclustering.rs:68-74: running mean of one center with one more point. -/
def updateCenter32 (center : List F32) (clusterSize : Nat) (point : List Nat) : List F32 :=
  (center.zip point).map (fun p =>
    (((p.1.mul (F32.ofNat clusterSize)).add (F32.ofNat p.2)).div ((F32.ofNat clusterSize).add (F32.num 1)))) ++
      center.drop point.length

/-- lib/src/block/symbol_statistics/kmeansclustering.rs:66-76: update of the centers. -/
def updateLoop32 : List (List Nat × UInt8) → List (List F32) → List Nat → Res (List (List F32))
  | [], centers, _ => Res.ok centers
  | (point, a) :: rest, centers, sizes => do
    let size ← idx sizes a.toNat
    let center ← idx centers a.toNat
    let centers ← setIdx centers a.toNat (updateCenter32 center size point)
    let sizes ← setIdx sizes a.toNat (size + 1)
    updateLoop32 rest centers sizes

/-- lib/src/block/symbol_statistics/kmeansclustering.rs:35-77: the iterations of Lloyd's algorithm. -/
def lloyd32 (dimension numClusters : Nat) (data : List (List Nat)) :
    Nat → List (List F32) → List UInt8 → Res (List (List F32) × List UInt8)
  | 0, centers, assignments => Res.ok (centers, assignments)
  | it + 1, centers, _ => do
    let assignments := assignAll32 data centers
    let cleared := centers.map (fun _ => List.replicate dimension (F32.num 0))
    let centers ← updateLoop32 (data.zip assignments) cleared (List.replicate numClusters 0)
    lloyd32 dimension numClusters data it centers assignments

/-- lib/src/block/symbol_statistics/kmeansclustering.rs:23-31: the initial centers. -/
def initialCenters32 (data : List (List Nat)) (numClusters : Nat) : Nat → Res (List (List F32))
  | 0 => Res.ok []
  | k + 1 => do
    let prev ← initialCenters32 data numClusters k
    let point ← idx data (k * data.length / numClusters)
    pure (prev ++ [point.map F32.ofNat])

/-- lib/src/block/symbol_statistics/kmeansclustering.rs:20-90 `solve`: (means, assignments). -/
def kmeansSolve32 (dimension : Nat) (data : List (List Nat)) (numIterations numClusters : Nat) :
    Res (List (List Nat) × List UInt8) := do
  let centers ← initialCenters32 data numClusters numClusters
  let (centers, assignments) ←
    lloyd32 dimension numClusters data numIterations centers (List.replicate data.length 0)
  pure (centers.map (fun c => c.map (fun x => (x.mul (F32.num 10000)).toUsize)), assignments)

/-- lib/src/block/symbol_statistics/mod.rs:50-58 `finalize` of `SinglePropabilityMap`. -/
def SingleMap.finalize32 (s : SingleMap) : Res ReportedSymbols :=
  Res.ok ⟨[s.frequencies, s.frequencies],
    List.replicate ((F32.ofNat s.symbolCount).div (F32.num 50)).ceil.toUsize 0⟩

/-- lib/src/block/symbol_statistics/mod.rs:106-130 `finalize` of `BlockWisePropabilityMap`. -/
def BlockWiseMap.finalize32 (numClusters numIterations : Nat) (s : BlockWiseMap) : Res ReportedSymbols := do
  let (means, assignments) ← kmeansSolve32 (s.size + 1) (s.maps ++ [s.current]) numIterations numClusters
  pure ⟨means, assignments⟩

/-- lib/src/block/block_encoder.rs:33-49: zero-run encoding with the reporter of the strategy. -/
def zleWithStrategy32 (strategy : Strategy) (encoded : List UInt8) (numUsed : Nat) :
    Res (List ZleSymbol × ReportedSymbols) :=
  match strategy with
  | Strategy.blockWise numClusters numIterations =>
    zleTransform ⟨BlockWiseMap.report, BlockWiseMap.finalize32 numClusters numIterations⟩
      (BlockWiseMap.create numUsed) encoded
  | Strategy.single => zleTransform ⟨SingleMap.report, SingleMap.finalize32⟩ (SingleMap.create numUsed) encoded

/-- lib/src/block/block_encoder.rs:24-113 `generate_block_data`. -/
def generateBlockData32 (strategy : Strategy) (checksum : BitVec 32) (rleData : List UInt8) : Res (List Bit) := do
  let (bwtData, origPtr) ← bwt rleData
  let (encoded, used) ← mtf bwtData
  let (zle, reported) ← zleWithStrategy32 strategy encoded used.length
  emitBlock checksum origPtr used zle reported

/-- lib/src/stream/mod.rs:105-180 `encode_stream`, as `encodeStreamFuel`. -/
def encodeStreamFuel32 (fuel : Nat) (r : Reader) (w : Writer) (numThreads : Nat) (strategy : Strategy) :
    Writer × Res Unit :=
  let gen := fun work => generateBlockData32 strategy work.crc work.rleTotal
  let result :=
    andThen
      (match (BitWriter.fromWriter w).writeBits fileHeader with | (bw, r) => (bw, r.unwrap))
      fun bw _ =>
    andThen (mainLoop gen r.failTail numThreads fuel r.events false bw 0) fun bw crc =>
    andThen (match bw.writeBits (streamFooter crc) with | (bw, r) => (bw, r.unwrap)) fun bw _ =>
    match bw.finalize with | (bw, r) => (bw, r.unwrap)
  (result.1.w, result.2)

/-- `encode_stream` with enough fuel, as `encodeStream`. -/
def encodeStream32 (r : Reader) (w : Writer) (numThreads : Nat) (strategy : Strategy) : Writer × Res Unit :=
  encodeStreamFuel32 (eventsSize r.events + r.events.length + 2) r w numThreads strategy

end Ribzip2
