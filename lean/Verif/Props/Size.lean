import Verif.Proofs.Size
/- Property C45: the size of the compressed data. -/
namespace Ribzip2
open Spec

/-- **C45.** With the single-table strategy and at least one thread `encode_stream` succeeds on every
byte string, and what it writes is at most 8/3 of the size of the input plus 2200 bytes. -/
theorem C45_size_bounded (dist : Distance) (d : List UInt8) (threads : Nat) (ht : 1 ≤ threads) :
    ∃ bytes, encodeBytes dist d threads Strategy.single = Res.ok bytes ∧
      3 * bytes.length ≤ 8 * d.length + 6600 := by
  obtain ⟨blocks, bytes, h1, h2, h3, h4⟩ := encodeBytes_single dist d threads ht
  refine ⟨bytes, h1, ?_⟩
  have hf := frames_length_le blocks h3
  rw [h2, blocksOf_flatten] at hf
  have hb := blocksOf_length d
  rw [← h2, List.length_map] at hb
  obtain ⟨k, k1, k2, -⟩ := h4
  have := congrArg List.length k2
  simp only [bytesBits_length, List.length_append, natToBits_length, List.length_replicate, streamHeader,
    footerMagic, List.length_cons, List.length_nil] at this
  omega

/-- One empty input: 14 bytes. -/
example : encodeBytes (fun _ _ => 0) [] 1 Strategy.single
    = Res.ok [0x42, 0x5a, 0x68, 0x39, 0x17, 0x72, 0x45, 0x38, 0x50, 0x90, 0, 0, 0, 0] := by decide +kernel

/-- Two bytes become 39, far below the bound. -/
example : ∃ bytes, encodeBytes (fun _ _ => 0) [0x61, 0x62] 1 Strategy.single = Res.ok bytes ∧ bytes.length = 39 :=
  ⟨[66, 90, 104, 57, 49, 65, 89, 38, 83, 89, 233, 147, 253, 205, 0, 0, 0, 1, 0, 48, 0, 32, 0, 33, 39, 168, 36, 245, 14,
    46, 228, 138, 112, 161, 33, 211, 39, 251, 154], by decide +kernel, rfl⟩

end Ribzip2
