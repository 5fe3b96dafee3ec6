import Verif.Proofs.Crc
import Verif.Proofs.CrcOrder
/- Property theorems C11, C12. -/
namespace Ribzip2
open Spec

/-- **C11.** For every byte string the library's table-driven `crc32` is the bit-serial bzip2
CRC-32 (polynomial 0x04C11DB7, most significant bit first, initial value and final xor all ones). -/
theorem C11_crc_is_bzip2_crc (d : List UInt8) : Ribzip2.crc32 d = Spec.crc32 d :=
  crc32_eq_spec d

/-- Test: the catalogued check value of CRC-32/BZIP2 for "123456789". -/
example : Ribzip2.crc32 [0x31, 0x32, 0x33, 0x34, 0x35, 0x36, 0x37, 0x38, 0x39] = 0xfc891918#32 := by
  decide +kernel

/-- **C12.** Two different byte strings that differ only inside a window of at most four consecutive
bytes have different CRCs. -/
theorem C12_crc_detects_four_byte_bursts (pre w₁ w₂ post : List UInt8)
    (hlen : w₁.length = w₂.length) (h4 : w₁.length ≤ 4) (hne : w₁ ≠ w₂) :
    Ribzip2.crc32 (pre ++ w₁ ++ post) ≠ Ribzip2.crc32 (pre ++ w₂ ++ post) := by
  rw [crc32_eq_spec, crc32_eq_spec, Spec.crc32, Spec.crc32]
  simp only [bytesBits_append]
  apply crcBits_burst
  · simp [hlen]
  · simp; omega
  · exact fun h => hne (bytesBits_inj h)

/-- **C12**, at the granularity of bits: byte strings whose bit strings differ only inside a window
of at most 32 consecutive bits have different CRCs. -/
theorem C12_crc_detects_32_bit_bursts (x y : List UInt8) (pre w₁ w₂ post : List Bool)
    (hx : bytesBits x = pre ++ w₁ ++ post) (hy : bytesBits y = pre ++ w₂ ++ post)
    (hlen : w₁.length = w₂.length) (h32 : w₁.length ≤ 32) (hne : w₁ ≠ w₂) :
    Ribzip2.crc32 x ≠ Ribzip2.crc32 y := by
  rw [crc32_eq_spec, crc32_eq_spec, Spec.crc32, Spec.crc32, hx, hy]
  exact crcBits_burst _ _ _ _ hlen h32 hne

/-- 16 bits from the middle of one byte to the middle of another one. -/
example : Ribzip2.crc32 [1, 0xf2, 3, 0x45] ≠ Ribzip2.crc32 [1, 0xf7, 9, 0x65] :=
  C12_crc_detects_32_bit_bursts _ _ ((bytesBits [1, 0xf2, 3, 0x45]).take 12)
    (((bytesBits [1, 0xf2, 3, 0x45]).drop 12).take 16) (((bytesBits [1, 0xf7, 9, 0x65]).drop 12).take 16)
    ((bytesBits [1, 0xf2, 3, 0x45]).drop 28) (by decide) (by decide) (by decide) (by decide) (by decide)

/-- **C12**, two flipped bits: byte strings whose bit strings differ in exactly two bits, anywhere, have different
CRCs, provided the distance of the two is less than 2^32 - 1 (which is 512 MiB: far more than a block holds). -/
theorem C12_crc_detects_two_flipped_bits (x y : List UInt8) (pre m post : List Bool) (b c : Bool)
    (hx : bytesBits x = pre ++ [b] ++ m ++ [c] ++ post) (hy : bytesBits y = pre ++ [!b] ++ m ++ [!c] ++ post)
    (hm : m.length + 1 < 2 ^ 32 - 1) :
    Ribzip2.crc32 x ≠ Ribzip2.crc32 y := by
  rw [crc32_eq_spec, crc32_eq_spec, Spec.crc32, Spec.crc32, hx, hy]
  exact crcBits_two_flips _ _ _ _ _ (by omega)

/-- The distance in `C12_crc_detects_two_flipped_bits` is sharp: at 2^32 - 1 two flipped bits are never noticed. -/
theorem C12_two_flips_far_apart (x y : List UInt8) (pre m post : List Bool) (b c : Bool)
    (hx : bytesBits x = pre ++ [b] ++ m ++ [c] ++ post) (hy : bytesBits y = pre ++ [!b] ++ m ++ [!c] ++ post)
    (hm : m.length + 1 = 2 ^ 32 - 1) :
    Ribzip2.crc32 x = Ribzip2.crc32 y := by
  rw [crc32_eq_spec, crc32_eq_spec, Spec.crc32, Spec.crc32, hx, hy]
  exact crcBits_two_flips_far _ _ _ _ _ (by omega)

/-- The hypotheses are met: the first bit of the first and the last bit of the last of five bytes. -/
example : Ribzip2.crc32 [0x80, 2, 3, 4, 5] ≠ Ribzip2.crc32 [0x00, 2, 3, 4, 4] :=
  C12_crc_detects_two_flipped_bits _ _ [] ((bytesBits [0x00, 2, 3, 4, 4]).tail.dropLast) [] true true
    (by decide) (by decide) (by decide)

/-- The hypotheses are met at the limit: half a gibibyte of zeros between the two flipped bits. -/
example (n : Nat) (hn : n = 2 ^ 29 - 2) : ∃ pre m post : List Bool, ∃ b c : Bool,
    bytesBits ([0x80] ++ List.replicate n 0 ++ [0x01]) = pre ++ [b] ++ m ++ [c] ++ post ∧
    bytesBits ([0x00] ++ List.replicate n 0 ++ [0x00]) = pre ++ [!b] ++ m ++ [!c] ++ post ∧
    m.length + 1 = 2 ^ 32 - 1 := by
  refine ⟨[], List.replicate 7 false ++ bytesBits (List.replicate n 0) ++ List.replicate 7 false, [], true, true, ?_, ?_, ?_⟩
  · rw [bytesBits_append, bytesBits_append, show bytesBits [0x80] = true :: List.replicate 7 false by decide,
      show bytesBits [0x01] = List.replicate 7 false ++ [true] by decide]
    simp
  · rw [bytesBits_append, bytesBits_append, show bytesBits [0x00] = List.replicate 8 false by decide]
    simp [List.replicate_succ]
  · simp only [List.length_append, List.length_replicate, bytesBits_length]
    omega

/-- The hypotheses of C12 are met: a four-byte burst in the middle of a string. -/
example : Ribzip2.crc32 ([9, 8] ++ [1, 2, 3, 4] ++ [7]) ≠ Ribzip2.crc32 ([9, 8] ++ [5, 2, 3, 6] ++ [7]) :=
  C12_crc_detects_four_byte_bursts _ _ _ _ rfl (by decide) (by decide)

/-- The limit is sharp: strings differing in a window of five bytes can collide (the burst is the
polynomial itself, 33 bits). -/
example : Ribzip2.crc32 [0x00, 0x00, 0x00, 0x00, 0x00]
    = Ribzip2.crc32 [0x01, 0x04, 0xC1, 0x1D, 0xB7] := by decide +kernel

end Ribzip2
