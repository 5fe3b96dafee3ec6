import Verif.Proofs.TruncateRelease
import Verif.Props.Recover
/- Property C78: how the decoder ends on a file that was cut off. -/
namespace Ribzip2
open Spec

/-- The claim of C78 for a decoder and a file `whole`: the file is a stream header, blocks, the end-of-stream magic, and
something else; the decoder writes the contents of the blocks; and, for the first `n` bytes of the file,

* the result is Ok if the end-of-stream magic lies in them;
* the decoder panics if the cut lies in one of the blocks: behind its 48-bit magic number, before its end, and not
  directly behind the 32-bit checksum that follows the magic number;
* the result is an error in all other cases. -/
def EndsOnCut (decode : Reader → Writer → Writer × Res Unit) (whole : List UInt8) : Prop :=
  ∃ (level : UInt8) (blocks : List (List UInt8 × List Bool)) (t : List Bool),
    bytesBits whole = streamHeader level ++ blockFrames blocks ++ (footerMagic ++ t) ∧
    outputOf decode whole = contents blocks ∧
    ∀ n, (32 + (blockFrames blocks).length + 48 ≤ 8 * n ∧ resultOf decode (whole.take n) = Res.ok ()) ∨
      (8 * n < 32 + (blockFrames blocks).length + 48 ∧
        ((∃ i < blocks.length, 32 + (blockFrames (blocks.take i)).length + 48 ≤ 8 * n ∧
            8 * n < 32 + (blockFrames (blocks.take (i + 1))).length ∧
            8 * n ≠ 32 + (blockFrames (blocks.take i)).length + 48 + 32) ∧
          resultOf decode (whole.take n) = Res.panic ∨
        (¬ ∃ i < blocks.length, 32 + (blockFrames (blocks.take i)).length + 48 ≤ 8 * n ∧
            8 * n < 32 + (blockFrames (blocks.take (i + 1))).length ∧
            8 * n ≠ 32 + (blockFrames (blocks.take i)).length + 48 + 32) ∧
          resultOf decode (whole.take n) = Res.err))

/-- A file that decodes starts with a stream header. -/
theorem header_of_bits {whole : List UInt8} {bs : List Bit} (h : pHeader (bytesBits whole) = Res.ok bs) :
    ∃ level rest, whole = [0x42, 0x5a, 0x68, level] ++ rest := by
  obtain ⟨level, hl⟩ := pHeader_inv h
  have hlen := congrArg List.length hl
  have h3 : (streamHeader level).length = 32 := by simp [streamHeader, bytesBits]
  rw [List.length_append, bytesBits_length_eq, h3] at hlen
  refine ⟨level, whole.drop 4, ?_⟩
  have h4 : bytesBits (whole.take 4) = bytesBits [0x42, 0x5a, 0x68, level] := by
    have e1 : bytesBits whole = bytesBits (whole.take 4) ++ bytesBits (whole.drop 4) := by
      rw [← bytesBits_append, List.take_append_drop]
    have := e1.symm.trans hl
    have h5 : (bytesBits (whole.take 4)).length = (streamHeader level).length := by
      rw [bytesBits_length_eq, h3, List.length_take]; omega
    exact (List.append_inj this h5).1
  rw [← bytesBits_inj h4, List.take_append_drop]

/-- **C78**. For every file the decoder accepts, and every place where it can be cut off. -/
theorem C78_how_a_cut_file_ends (whole : List UInt8) (hok : resultOf decodeStream whole = Res.ok ()) :
    EndsOnCut decodeStream whole := by
  have hout : ∀ file, outputOf decodeStream file = (pStream (bytesBits file)).1.flatten := by
    intro file
    simp only [outputOf, Writer.empty, decodeStream_reliable, List.nil_append]
    simp [Reader.ofBytes]
  have hres : ∀ file, resultOf decodeStream file = (pStream (bytesBits file)).2 := by
    intro file
    simp only [resultOf, Writer.empty, decodeStream_reliable]
    simp [Reader.ofBytes]
  obtain ⟨level, rest, rfl⟩ : ∃ level rest, whole = [0x42, 0x5a, 0x68, level] ++ rest := by
    rw [hres, pStream] at hok
    rcases h : pHeader (bytesBits whole) with bs | _ | _ | _
    · exact header_of_bits h
    all_goals simp [h] at hok
  have hall : bytesBits ([0x42, 0x5a, 0x68, level] ++ rest) = streamHeader level ++ bytesBits rest := by
    rw [bytesBits_append]; rfl
  obtain ⟨blocks, tail, g1, g2, g3, g4, g5, g6⟩ :=
    pBlocks_splits ((bytesBits rest).length + 1) (bytesBits rest) (by omega)
  rw [hres, hall, pStream_header] at hok
  obtain ⟨t, rfl⟩ := g6 hok
  have hm : footerMagic.length = 48 := by decide
  have h6 := congrArg List.length g2
  rw [bytesBits_length_eq, List.length_append, List.length_append, hm] at h6
  refine ⟨level, blocks, t, ?_, ?_, fun n => ?_⟩
  · rw [hall, g2, List.append_assoc]
  · rw [hout, hall, pStream_header, g1, contents_flatten]
  · rw [hres]
    by_cases hn : 4 ≤ n
    · rw [take_bits level rest n hn, pStream_header]
      have hcut : bytesBits (rest.take (n - 4)) <+: blockFrames blocks ++ (footerMagic ++ t) := by
        rw [← g2]
        exact bytesBits_prefix (List.take_prefix _ _)
      have hcl : (bytesBits (rest.take (n - 4))).length = 8 * min (n - 4) rest.length := by
        rw [bytesBits_length_eq, List.length_take]
      by_cases hlong : 32 + (blockFrames blocks).length + 48 ≤ 8 * n
      · left
        exact ⟨hlong, (pBlocks_cutoff_ok blocks g3 t _ hcut).2 (by omega)⟩
      · right
        refine ⟨by omega, ?_⟩
        obtain ⟨k1, k2⟩ := pBlocks_cut_end blocks g3 t _ hcut (by omega)
        have hmin : min (n - 4) rest.length = n - 4 := by omega
        have hiff : InsideBlock blocks (bytesBits (rest.take (n - 4))).length ↔
            ∃ i < blocks.length, 32 + (blockFrames (blocks.take i)).length + 48 ≤ 8 * n ∧
              8 * n < 32 + (blockFrames (blocks.take (i + 1))).length ∧
              8 * n ≠ 32 + (blockFrames (blocks.take i)).length + 48 + 32 := by
          rw [hcl, hmin]
          constructor
          · rintro ⟨i, hi, a1, a2, a3⟩
            exact ⟨i, hi, by omega, by omega, by omega⟩
          · rintro ⟨i, hi, a1, a2, a3⟩
            exact ⟨i, hi, by omega, by omega, by omega⟩
        by_cases hin : InsideBlock blocks (bytesBits (rest.take (n - 4))).length
        · left
          exact ⟨hiff.1 hin, k1 hin⟩
        · right
          exact ⟨fun h => hin (hiff.2 h), k2 hin⟩
    · right
      refine ⟨by omega, Or.inr ⟨?_, ?_⟩⟩
      · rintro ⟨i, hi, a1, a2, a3⟩
        omega
      · rw [pStream, pHeader_short _ (by rw [bytesBits_length_eq, List.length_take]; omega)]

/-- **C78**, for release builds. -/
theorem C78_how_a_cut_file_ends_release (whole : List UInt8) (hok : resultOf Release.decodeStream whole = Res.ok ()) :
    EndsOnCut Release.decodeStream whole := by
  have hout : ∀ file, outputOf Release.decodeStream file = (Release.pStream (bytesBits file)).1.flatten := by
    intro file
    simp only [outputOf, Writer.empty, Release.decodeStream_reliable, List.nil_append]
    simp [Reader.ofBytes]
  have hres : ∀ file, resultOf Release.decodeStream file = (Release.pStream (bytesBits file)).2 := by
    intro file
    simp only [resultOf, Writer.empty, Release.decodeStream_reliable]
    simp [Reader.ofBytes]
  obtain ⟨level, rest, rfl⟩ : ∃ level rest, whole = [0x42, 0x5a, 0x68, level] ++ rest := by
    rw [hres, Release.pStream] at hok
    rcases h : pHeader (bytesBits whole) with bs | _ | _ | _
    · exact header_of_bits h
    all_goals simp [h] at hok
  have hall : bytesBits ([0x42, 0x5a, 0x68, level] ++ rest) = streamHeader level ++ bytesBits rest := by
    rw [bytesBits_append]; rfl
  obtain ⟨blocks, tail, g1, g2, g3, g4, g5, g6⟩ :=
    Release.pBlocks_splits ((bytesBits rest).length + 1) (bytesBits rest) (by omega)
  rw [hres, hall, Release.pStream_header] at hok
  obtain ⟨t, rfl⟩ := g6 hok
  have hm : footerMagic.length = 48 := by decide
  have h6 := congrArg List.length g2
  rw [bytesBits_length_eq, List.length_append, List.length_append, hm] at h6
  refine ⟨level, blocks, t, ?_, ?_, fun n => ?_⟩
  · rw [hall, g2, List.append_assoc]
  · rw [hout, hall, Release.pStream_header, g1, contents_flatten]
  · rw [hres]
    by_cases hn : 4 ≤ n
    · rw [take_bits level rest n hn, Release.pStream_header]
      have hcut : bytesBits (rest.take (n - 4)) <+: blockFrames blocks ++ (footerMagic ++ t) := by
        rw [← g2]
        exact bytesBits_prefix (List.take_prefix _ _)
      have hcl : (bytesBits (rest.take (n - 4))).length = 8 * min (n - 4) rest.length := by
        rw [bytesBits_length_eq, List.length_take]
      by_cases hlong : 32 + (blockFrames blocks).length + 48 ≤ 8 * n
      · left
        exact ⟨hlong, (Release.pBlocks_cutoff_ok blocks g3 t _ hcut).2 (by omega)⟩
      · right
        refine ⟨by omega, ?_⟩
        obtain ⟨k1, k2⟩ := Release.pBlocks_cut_end blocks g3 t _ hcut (by omega)
        have hmin : min (n - 4) rest.length = n - 4 := by omega
        have hiff : InsideBlock blocks (bytesBits (rest.take (n - 4))).length ↔
            ∃ i < blocks.length, 32 + (blockFrames (blocks.take i)).length + 48 ≤ 8 * n ∧
              8 * n < 32 + (blockFrames (blocks.take (i + 1))).length ∧
              8 * n ≠ 32 + (blockFrames (blocks.take i)).length + 48 + 32 := by
          rw [hcl, hmin]
          constructor
          · rintro ⟨i, hi, a1, a2, a3⟩
            exact ⟨i, hi, by omega, by omega, by omega⟩
          · rintro ⟨i, hi, a1, a2, a3⟩
            exact ⟨i, hi, by omega, by omega, by omega⟩
        by_cases hin : InsideBlock blocks (bytesBits (rest.take (n - 4))).length
        · left
          exact ⟨hiff.1 hin, k1 hin⟩
        · right
          exact ⟨fun h => hin (hiff.2 h), k2 hin⟩
    · right
      refine ⟨by omega, Or.inr ⟨?_, ?_⟩⟩
      · rintro ⟨i, hi, a1, a2, a3⟩
        omega
      · rw [Release.pStream, pHeader_short _ (by rw [bytesBits_length_eq, List.length_take]; omega)]

/-- C78 is not vacuous: the sample decodes; cut inside its block the decoder panics, directly behind the checksum, at
the end of the block and before the first block there is an error. -/
example : resultOf decodeStream sampleA = Res.ok () ∧
    resultOf decodeStream (sampleA.take 12) = Res.panic ∧ resultOf decodeStream (sampleA.take 14) = Res.err ∧
    resultOf decodeStream (sampleA.take 15) = Res.panic ∧ resultOf decodeStream (sampleA.take 28) = Res.err ∧
    resultOf decodeStream (sampleA.take 7) = Res.err := by
  decide +kernel

end Ribzip2
