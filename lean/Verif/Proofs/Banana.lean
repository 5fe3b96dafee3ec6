import Verif.Proofs.RoundTrip
/- A small input that meets the hypotheses of the round trip theorems; the examples beside those theorems use it. -/
namespace Ribzip2
open Spec

/-- "banana". -/
def banana : List UInt8 := [98, 97, 110, 97, 110, 97]

theorem banana_rle : rle1Encode banana = banana := by decide +kernel

theorem banana_smallest : SmallestSuffixAt banana 5 := ⟨by decide, by decide +kernel⟩

theorem banana_minimal : MinimalRotationAt banana 5 := ⟨by decide, by decide +kernel⟩

theorem banana_safe : TransformSafe (rle1Encode banana) := by
  rw [banana_rle]
  apply transformSafe_of_minimal
  intro f hf
  rw [smallestSuffixAt_unique hf banana_smallest]
  exact banana_minimal

theorem banana_block : blocksOf banana = [banana] := blocksOf_small banana (by decide) (by decide)

theorem banana_collision : noCountCollision (runs banana) = true := by decide +kernel

theorem banana_good : ∀ b ∈ blocksOf banana, TransformSafe (rle1Encode b) ∧ noCountCollision (runs b) = true := by
  rw [banana_block]
  intro b hb
  rw [List.mem_singleton.1 hb]
  exact ⟨banana_safe, banana_collision⟩

theorem banana_fits : ∀ b ∈ blocksOf banana, TransformSafe (rle1Encode b) ∧ (rle1Encode b).length ≤ 900000 := by
  rw [banana_block]
  intro b hb
  rw [List.mem_singleton.1 hb]
  exact ⟨banana_safe, by decide +kernel⟩

end Ribzip2
