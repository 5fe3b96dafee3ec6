import Verif.Proofs.Strict
import Verif.Props.Decode
/- Property C85: what `decode_stream` accepts. -/
namespace Ribzip2
open Spec

theorem header_bytes {bytes : List UInt8} {level : UInt8} {rest : List Bool}
    (h : bytesBits bytes = streamHeader level ++ rest) : ∃ more, bytes = 0x42 :: 0x5a :: 0x68 :: level :: more := by
  have hl : 4 ≤ bytes.length := by
    have := congrArg List.length h
    simp [streamHeader] at this
    omega
  refine ⟨bytes.drop 4, ?_⟩
  have : bytes.take 4 = [0x42, 0x5a, 0x68, level] := by
    apply bytesBits_inj
    rw [← List.take_append_drop 4 bytes, bytesBits_append] at h
    exact (List.append_inj h (by simp [streamHeader]; omega)).1
  conv => lhs; rw [← List.take_append_drop 4 bytes, this]
  rfl

theorem pBlocks_accepts (level : Nat) (hlv : level ≤ 9) (fuel : Nat) (bs : List Bit)
    (h : (pBlocks fuel bs).2 = Res.ok ()) :
    ∃ blocks : List (List UInt8 × List Bool), (∀ b ∈ blocks, ValidBody (100000 * level) b.1 b.2) ∧
      ((∃ (crc : BitVec 32) (bits : List Bool), bs = blockFrames blocks ++ blockMagic ++ natToBits 32 crc.toNat ++ bits ∧
          BlockDeviates level bits) ∨
        ∃ tail, bs = blockFrames blocks ++ footerMagic ++ tail ∧ (pBlocks fuel bs).1.flatten = contents blocks) := by
  induction fuel generalizing bs with
  | zero => simp [pBlocks] at h
  | succ fuel ih =>
    rw [pBlocks] at h
    rcases hw : pWhatNext bs with ⟨ty, mid⟩ | _ | _ | _ <;> simp only [hw, reduceCtorEq] at h
    rcases pWhatNext_inv hw with ⟨rfl, e⟩ | ⟨rfl, e⟩
    · simp only at h
      rcases hb : pBlock mid with ⟨d, rest⟩ | _ | _ | _ <;> simp only [hb, reduceCtorEq] at h
      obtain ⟨bits, b1, hdev | ⟨body, b2, b3⟩⟩ := pBlock_accepts level hlv hb
      · refine ⟨[], by simp, Or.inl ⟨Spec.crc32 d, bits, ?_, hdev⟩⟩
        rw [e, b1]; simp [blockFrames]
      · obtain ⟨blocks, i1, i2⟩ := ih rest h
        refine ⟨(d, body) :: blocks, by
          intro x hx; rcases List.mem_cons.1 hx with rfl | hx
          exacts [b3, i1 x hx], ?_⟩
        have hf : ∀ x, blockFrames ((d, body) :: blocks) ++ x
            = blockMagic ++ (natToBits 32 (Spec.crc32 d).toNat ++ (body ++ (blockFrames blocks ++ x))) := by
          intro x; simp [blockFrames, blockFrame]
        rcases i2 with ⟨crc, bits', j1, j2⟩ | ⟨tail, j1, j2⟩
        · refine Or.inl ⟨crc, bits', ?_, j2⟩
          rw [e, b1, b2, j1]
          simp only [List.append_assoc]
          rw [hf]
        · refine Or.inr ⟨tail, ?_, ?_⟩
          · rw [e, b1, b2, j1]
            simp only [List.append_assoc]
            rw [hf]
          · rw [pBlocks, hw]
            simp only [hb, List.flatten_cons, j2]
            simp [contents]
    · refine ⟨[], by simp, Or.inr ⟨mid, by rw [e]; simp [blockFrames], ?_⟩⟩
      rw [pBlocks, hw]
      simp [contents]

/-- **C85**, partial: whatever `decode_stream` accepts is a valid bzip2 stream for the data it returns, or deviates from
the format in one of the ways listed in `StreamDeviates`: the level, the randomised flag, empty ranges in the map of used
bytes, the number of tables, no selectors, code lengths outside of 1..20 or without a prefix code, the end-of-block symbol
missing or before the last group, a block that is too large or no transform of any block, or what stands behind the
end-of-stream magic; or it has a repeat count followed by three bytes equal to it. Missing: the full property would be
without the second alternative. -/
theorem C85_accepted_partial (bytes d : List UInt8) (h : decodeBytes bytes = Res.ok d) :
    ValidStream d bytes ∨ StreamDeviates bytes := by
  rw [decodeBytes_eq] at h
  unfold pStream at h
  rcases hh : pHeader (bytesBits bytes) with b | _ | _ | _ <;> simp only [hh, Res.err_bind, Res.panic_bind, Res.div_bind,
    reduceCtorEq] at h
  obtain ⟨lv, hl⟩ := pHeader_inv hh
  obtain ⟨more, hmore⟩ := header_bytes hl
  by_cases hlow : lv < 0x31 ∨ 0x39 < lv
  · exact Or.inr (StreamDeviates.level lv more hmore hlow)
  obtain ⟨level, l1, l2, rfl⟩ : ∃ level, 1 ≤ level ∧ level ≤ 9 ∧ lv = UInt8.ofNat (0x30 + level) := by
    simp only [not_or, UInt8.not_lt] at hlow
    obtain ⟨g1, g2⟩ := hlow
    rw [UInt8.le_iff_toNat_le] at g1 g2
    have g1 : 49 ≤ lv.toNat := g1
    have g2 : lv.toNat ≤ 57 := g2
    refine ⟨lv.toNat - 48, by omega, by omega, ?_⟩
    rw [show 0x30 + (lv.toNat - 48) = lv.toNat by omega]
    simp
  rcases hp : (pBlocks (b.length + 1) b).2 with u | _ | _ | _ <;> simp only [hp, Res.ok_bind, Res.err_bind, Res.panic_bind,
    Res.div_bind, reduceCtorEq, Res.ok.injEq] at h
  obtain ⟨blocks, hv, ⟨crc, bits, j1, j2⟩ | ⟨tail, j1, j2⟩⟩ := pBlocks_accepts level l2 _ b hp
  · exact Or.inr (StreamDeviates.block level blocks crc bits l1 l2 hv (by rw [hl, j1]; simp) j2)
  · have hbits : bytesBits bytes = streamHeader (UInt8.ofNat (0x30 + level)) ++ blockFrames blocks ++ footerMagic ++ tail := by
      rw [hl, j1]; simp
    by_cases hk : ∃ k < 8, tail = natToBits 32 (streamCrc blocks).toNat ++ List.replicate k false
    · obtain ⟨k, k1, rfl⟩ := hk
      refine Or.inl ⟨level, blocks, ⟨l1, l2, k, k1, by rw [hbits]; simp, by rw [bytesBits_length]; exact ⟨_, rfl⟩⟩, ?_, hv⟩
      rw [← j2, h]
    · exact Or.inr (StreamDeviates.footer level blocks tail l1 l2 hv hbits (fun k k1 e => hk ⟨k, k1, e⟩))

/-- **C85 is false of the code**: `decode_stream` accepts inputs that are valid streams for no data. -/
theorem C85_refuted : ¬ ∀ bytes d, decodeBytes bytes = Res.ok d → ∃ d', ValidStream d' bytes := by
  intro h
  obtain ⟨d', level, blocks, ⟨l1, l2, k, -, hb, -⟩, -⟩ := h (sampleA.set 3 0x30) [97] (by decide +kernel)
  have := congrArg (List.take 32) hb
  rw [show sampleA.set 3 0x30 = [0x42, 0x5a, 0x68, 0x30] ++ (sampleA.set 3 0x30).drop 4 by decide, bytesBits_append,
    List.take_left' (by simp)] at this
  simp only [List.append_assoc] at this
  rw [List.take_left' (by simp [streamHeader]), streamHeader] at this
  have := bytesBits_inj this
  simp only [List.cons.injEq, true_and, and_true] at this
  have := congrArg UInt8.toNat this
  rw [UInt8.toNat_ofNat_of_lt' (show 48 + level < 256 by omega)] at this
  simp at this
  omega

/-- `C85_accepted_partial` applied to a valid stream. -/
example : ValidStream [97] sampleA ∨ StreamDeviates sampleA := C85_accepted_partial _ _ (by decide +kernel)

/-! The deviations are accepted (for the size of blocks see `C55_refuted_block_size`; a missing end-of-block symbol takes
a block of 50 symbols, which is too much for an example): -/

/-- The flag of randomised blocks is set. -/
example : decodeBytes
    [66, 90, 104, 57, 49, 65, 89, 38, 83, 89, 25, 147, 155, 107, 128, 0, 0, 1, 0, 32, 0, 32, 0, 32, 160, 40,
     98, 238, 72, 167, 10, 18, 3, 50, 115, 109, 96]
    = Res.ok [97] := by decide +kernel

/-- An empty range of byte values is announced. -/
example : decodeBytes
    [66, 90, 104, 57, 49, 65, 89, 38, 83, 89, 25, 147, 155, 107, 0, 0, 0, 1, 0, 160, 0, 0, 0, 32, 0, 32, 160,
     40, 98, 238, 72, 167, 10, 18, 3, 50, 115, 109, 96]
    = Res.ok [97] := by decide +kernel

/-- There is one code table. -/
example : decodeBytes
    [66, 90, 104, 57, 49, 65, 89, 38, 83, 89, 25, 147, 155, 107, 0, 0, 0, 1, 0, 32, 0, 16, 0, 32, 161, 139,
     185, 34, 156, 40, 72, 12, 201, 205, 181, 128]
    = Res.ok [97] := by decide +kernel

/-- There are seven code tables. -/
example : decodeBytes
    [66, 90, 104, 57, 49, 65, 89, 38, 83, 89, 25, 147, 155, 107, 0, 0, 0, 1, 0, 32, 0, 112, 0, 32, 160, 40,
     10, 2, 128, 160, 40, 10, 24, 187, 146, 41, 194, 132, 128, 204, 156, 219, 88]
    = Res.ok [97] := by decide +kernel

/-- The number of selectors is 0 (one is read nevertheless). -/
example : decodeBytes
    [66, 90, 104, 57, 49, 65, 89, 38, 83, 89, 25, 147, 155, 107, 0, 0, 0, 1, 0, 32, 0, 32, 0, 0, 160, 40, 98,
     238, 72, 167, 10, 18, 3, 50, 115, 109, 96]
    = Res.ok [97] := by decide +kernel

/-- There are codes of 21 bits. -/
example : decodeBytes
    [66, 90, 104, 57, 49, 65, 89, 38, 83, 89, 25, 147, 155, 107, 0, 0, 0, 1, 0, 32, 0, 32, 0, 32, 170, 170,
     170, 170, 170, 128, 161, 0, 0, 17, 119, 36, 83, 133, 9, 1, 153, 57, 182, 176]
    = Res.ok [97] := by decide +kernel

/-- A code length passes through 0. -/
example : decodeBytes
    [66, 90, 104, 57, 49, 65, 89, 38, 83, 89, 25, 147, 155, 107, 0, 0, 0, 1, 0, 32, 0, 32, 0, 32, 186, 2, 134,
     46, 228, 138, 112, 161, 32, 51, 39, 54, 214]
    = Res.ok [97] := by decide +kernel

/-- Two codes of one bit and one of two bits. -/
example : decodeBytes
    [66, 90, 104, 57, 49, 65, 89, 38, 83, 89, 228, 208, 219, 20, 0, 0, 0, 1, 0, 32, 0, 32, 0, 33, 48, 40, 69, 220,
     145, 78, 20, 36, 57, 52, 54, 197, 0]
    = Res.ok [97, 97] := by decide +kernel

/-- Two groups, each with an end-of-block symbol. -/
example : decodeBytes
    [66, 90, 104, 57, 49, 65, 89, 38, 83, 89, 31, 229, 223, 206, 0, 0, 0, 1, 0, 32, 0, 32, 0, 64, 80, 20, 54,
     46, 228, 138, 112, 161, 32, 63, 203, 191, 156]
    = Res.ok [97, 97, 97] := by decide +kernel

/-- `ab` with row 0 is the transform of no block. -/
example : decodeBytes
    [66, 90, 104, 57, 49, 65, 89, 38, 83, 89, 228, 208, 219, 20, 0, 0, 0, 1, 0, 48, 0, 32, 0, 33, 0, 128, 177,
     119, 36, 83, 133, 9, 14, 77, 13, 177, 64]
    = Res.ok [97, 97] := by decide +kernel

/-- A repeat count of 1 is followed by three bytes 1 (the block stands for other data than what is returned). -/
example : decodeBytes
    [66, 90, 104, 57, 49, 65, 89, 38, 83, 89, 165, 47, 180, 242, 0, 0, 4, 65, 0, 34, 0, 32, 0, 32, 0, 33, 128,
     96, 104, 4, 92, 23, 114, 69, 56, 80, 144, 165, 47, 180, 242]
    = Res.ok [97, 97, 97, 97, 97, 1, 1, 1, 1, 1, 1, 1, 1] := by decide +kernel

/-- The level is 0. -/
example : decodeBytes
    [66, 90, 104, 48, 49, 65, 89, 38, 83, 89, 25, 147, 155, 107, 0, 0, 0, 1, 0, 32, 0, 32, 0, 32, 160, 40, 98,
     238, 72, 167, 10, 18, 3, 50, 115, 109, 96]
    = Res.ok [97] := by decide +kernel

/-- The checksum of the stream is wrong. -/
example : decodeBytes
    [66, 90, 104, 57, 49, 65, 89, 38, 83, 89, 25, 147, 155, 107, 0, 0, 0, 1, 0, 32, 0, 32, 0, 32, 160, 40, 98,
     238, 72, 167, 10, 18, 3, 50, 115, 0, 0]
    = Res.ok [97] := by decide +kernel

/-- A byte follows the stream. -/
example : decodeBytes
    [66, 90, 104, 57, 49, 65, 89, 38, 83, 89, 25, 147, 155, 107, 0, 0, 0, 1, 0, 32, 0, 32, 0, 32, 160, 40, 98,
     238, 72, 167, 10, 18, 3, 50, 115, 109, 96, 0]
    = Res.ok [97] := by decide +kernel

end Ribzip2
