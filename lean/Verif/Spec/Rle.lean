/- Specification of bzip2's first run-length code (RLE1). -/
namespace Ribzip2.Spec

/-- The standard RLE1 decoder: four equal bytes are followed by a repeat count (0..255); after the
count decoding starts afresh. -/
def rle1Decode : List UInt8 → List UInt8
  | a :: b :: c :: d :: n :: rest =>
    if a = b ∧ a = c ∧ a = d then List.replicate (4 + n.toNat) a ++ rle1Decode rest
    else a :: rle1Decode (b :: c :: d :: n :: rest)
  | a :: rest => a :: rle1Decode rest
  | [] => []

/-- Continue a run of `n` bytes `b`. -/
def runsFrom (b : UInt8) (n : Nat) : List UInt8 → List (UInt8 × Nat)
  | [] => [(b, n)]
  | c :: d => if c = b ∧ n < 255 then runsFrom b (n + 1) d else (b, n) :: runsFrom c 1 d

/-- The runs of equal bytes of a string, from left to right, cut after 255 bytes. -/
def runs : List UInt8 → List (UInt8 × Nat)
  | [] => []
  | b :: d => runsFrom b 1 d

/-- How bzip2 writes a run: up to three bytes literally, longer runs as four bytes and a count. -/
def encodeRun (r : UInt8 × Nat) : List UInt8 :=
  if r.2 < 4 then List.replicate r.2 r.1 else List.replicate 4 r.1 ++ [UInt8.ofNat (r.2 - 4)]

/-- The standard RLE1 encoder. -/
def rle1Encode (d : List UInt8) : List UInt8 := (runs d).flatMap encodeRun

/-- No run of `n ≥ 4` bytes is directly followed by a run of `m ≥ 3` bytes of value `n - 4` (its repeat
count); except that `m = 3` is harmless at the very end, and `m = n` is harmless if `n < 255`. -/
def noCountCollision : List (UInt8 × Nat) → Bool
  | (_, n) :: (c, m) :: rest =>
    !(decide (4 ≤ n) && (c.toNat == n - 4) &&
        ((decide (m = 3) && !rest.isEmpty) || (decide (4 ≤ m) && !(decide (m = n) && decide (n < 255)))))
      && noCountCollision ((c, m) :: rest)
  | _ => true

end Ribzip2.Spec
