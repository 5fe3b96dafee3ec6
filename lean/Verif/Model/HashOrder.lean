import Verif.Model.Huffman
/- `package_merge` with its `HashMap` (lib/src/block/huffman/package_merge.rs:38-96), whose iteration order is random:
it depends on a seed drawn when the map is made. -/
namespace Ribzip2

/-- lib/src/block/huffman/package_merge.rs:39 `HashMap::<usize, Vec<CoinEntry>>`: its entries, in the order in which
they are stored. -/
abbrev CoinMap := List (Nat × List CoinEntry)

/-- `HashMap::insert`: the value of an existing key is replaced, a new entry can be stored anywhere (here: in front;
every iteration below goes over the entries in an arbitrary order). -/
def CoinMap.insert (m : CoinMap) (k : Nat) (v : List CoinEntry) : CoinMap :=
  if m.any (fun e => e.1 = k) then m.map (fun e => if e.1 = k then (k, v) else e) else (k, v) :: m

/-- `HashMap::get_mut(&k).unwrap()`: the value, or a panic. -/
def CoinMap.get (m : CoinMap) (k : Nat) : Res (List CoinEntry) :=
  Res.ofOption (m.lookup k)

/-- lib/src/block/huffman/package_merge.rs:48-56: `push` the entry for a coin to the list of its exponent. -/
def pushCoin (m : CoinMap) (c : Coin) : Res CoinMap := do
  let list ← m.get c.exponent
  pure (m.insert c.exponent (list ++ [CoinEntry.one c.value c]))

/-- lib/src/block/huffman/package_merge.rs:48-56, the loop over the coins. -/
def pushCoins : List Coin → CoinMap → Res CoinMap
  | [], m => Res.ok m
  | c :: cs, m => do
    let m ← pushCoin m c
    pushCoins cs m

/-- lib/src/block/huffman/package_merge.rs:69-92, the loop over the ordered keys; state: the map, `coins_to_merge`
and `last`. `append` empties `coins_to_merge` before it is filled again. -/
def keyLoop : List Nat → CoinMap → List CoinEntry → List CoinEntry → Res (List CoinEntry)
  | [], _, _, last => Res.ok last
  | k :: ks, m, toMerge, _ => do
    let list ← m.get k
    let list := stableSort CoinEntry.le (list ++ toMerge)
    keyLoop ks (m.insert k list) (mergePairs list) list

/-- lib/src/block/huffman/package_merge.rs:38-96 `package_merge`. `order1` is the order in which `map.iter_mut()`
(line 58) visits the entries, `order2` the order in which `map.keys()` (line 62) does. -/
def packageMergeHash (order1 order2 : CoinMap → CoinMap) (coins : List Coin) : Res (List (List Coin)) := do
  let maxExp ← Res.ofOption ((coins.map (fun c => c.exponent)).max?)
  let m : CoinMap := (List.range (maxExp + 1)).foldl (fun m i => m.insert i []) []
  let m ← pushCoins coins m
  let m : CoinMap := (order1 m).map (fun e => (e.1, stableSort CoinEntry.le e.2))
  let keys := (stableSort (fun a b => decide (a ≤ b)) ((order2 m).map (fun e => e.1))).reverse
  let last ← keyLoop keys m [] []
  pure (last.map CoinEntry.flatten)

/-- lib/src/block/huffman/package_merge.rs:7-34 `compute_lis`, with the hash map. -/
def computeLisHash (order1 order2 : CoinMap → CoinMap) (weights : List Nat) (limit : Nat) : Res (List Nat) := do
  let coins := (List.range limit).flatMap (fun i => weights.map (fun w => (⟨w, i + 1⟩ : Coin)))
  let packages ← packageMergeHash order1 order2 coins
  let n ← subU weights.length 1
  let solution := (packages.take n).flatten
  pure (weights.map (fun w => (solution.filter (fun c => c.value = w)).length))

end Ribzip2
