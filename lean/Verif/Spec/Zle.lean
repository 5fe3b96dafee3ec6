/- Specification of bzip2's zero-run code (RLE2).  Symbols: 0 is RUNA, 1 is RUNB, `v + 1` stands for
the move-to-front position `v ≥ 1`. -/
namespace Ribzip2.Spec

/-- Decoder; `w` is the weight of the next run symbol: the k-th symbol of a run stands for `2^k`
(RUNA) or `2 * 2^k` (RUNB) zeros. -/
def zleDecode (w : Nat) : List Nat → List Nat
  | [] => []
  | 0 :: rest => List.replicate w 0 ++ zleDecode (2 * w) rest
  | 1 :: rest => List.replicate (2 * w) 0 ++ zleDecode (2 * w) rest
  | (v + 2) :: rest => (v + 1) :: zleDecode 1 rest

end Ribzip2.Spec
