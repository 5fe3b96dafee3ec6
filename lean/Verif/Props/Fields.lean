import Verif.Proofs.Fields
import Verif.Props.Recover
/- Property C74: damaged magic numbers and block checksums. -/
namespace Ribzip2
open Spec

/-! ### C74 -/

/-- The claim of C74 for a decoder and a stream `whole` that it accepts: the stream is a header, blocks (each the
block magic, the CRC of its content, and a body), the end-of-stream magic, and more. Let a file agree with it up to
the beginning of block number `i`, or to the end-of-stream magic (the level in the header may differ).

* If other 48 bits follow, not one of the two magic numbers, the decoder returns Err, having written exactly the
  blocks before.
* If block `i` follows with another checksum, the decoder returns Err, having written exactly the blocks before.
* If the end-of-stream magic follows, whatever was there, the decoder returns Ok and the rest is lost. -/
def DetectsFieldDamage (decode : Reader → Writer → Writer × Res Unit) (level : UInt8) (whole : List UInt8) : Prop :=
  ∃ (blocks : List (List UInt8 × List Bool)) (tail : List Bool),
    bytesBits whole = streamHeader level ++ blockFrames blocks ++ footerMagic ++ tail ∧
    outputOf decode whole = contents blocks ∧
    (∀ i level' file m rest, i ≤ blocks.length → m.length = 48 → m ≠ blockMagic → m ≠ footerMagic →
      bytesBits file = streamHeader level' ++ blockFrames (blocks.take i) ++ m ++ rest →
      resultOf decode file = Res.err ∧ outputOf decode file = contents (blocks.take i)) ∧
    (∀ i b level' file c rest, blocks[i]? = some b → c.length = 32 → c ≠ natToBits 32 (Spec.crc32 b.1).toNat →
      bytesBits file = streamHeader level' ++ blockFrames (blocks.take i) ++ blockMagic ++ c ++ b.2 ++ rest →
      resultOf decode file = Res.err ∧ outputOf decode file = contents (blocks.take i)) ∧
    (∀ i level' file rest, i ≤ blocks.length →
      bytesBits file = streamHeader level' ++ blockFrames (blocks.take i) ++ footerMagic ++ rest →
      resultOf decode file = Res.ok () ∧ outputOf decode file = contents (blocks.take i))

/-- **C74.** -/
theorem C74_damaged_fields_are_detected (level : UInt8) (rest : List UInt8)
    (hok : resultOf decodeStream ([0x42, 0x5a, 0x68, level] ++ rest) = Res.ok ()) :
    DetectsFieldDamage decodeStream level ([0x42, 0x5a, 0x68, level] ++ rest) := by
  have hout : ∀ file, outputOf decodeStream file = (pStream (bytesBits file)).1.flatten := by
    intro file
    simp only [outputOf, Writer.empty, decodeStream_reliable, List.nil_append]
    simp [Reader.ofBytes]
  have hres : ∀ file, resultOf decodeStream file = (pStream (bytesBits file)).2 := by
    intro file
    simp only [resultOf, Writer.empty, decodeStream_reliable]
    simp [Reader.ofBytes]
  have hall : bytesBits ([0x42, 0x5a, 0x68, level] ++ rest) = streamHeader level ++ bytesBits rest := by
    rw [bytesBits_append]; rfl
  rw [hres, hall, pStream_header] at hok
  obtain ⟨blocks, tail, g1, g2, g3, g4, g5, g6⟩ := pBlocks_splits ((bytesBits rest).length + 1) (bytesBits rest) (by omega)
  obtain ⟨t, rfl⟩ := g6 hok
  -- the blocks before the damage are read
  have key : ∀ (i : Nat) (level' : UInt8) (file : List UInt8) (z : List Bool) (r : Res Unit),
      bytesBits file = streamHeader level' ++ blockFrames (blocks.take i) ++ z →
      pBlocks (z.length + 1) z = ([], r) →
      resultOf decodeStream file = r ∧ outputOf decodeStream file = contents (blocks.take i) := by
    intro i level' file z r hf hz
    rw [hres, hout, hf, List.append_assoc, pStream_header,
      pBlocks_append _ (fun b hb => g3 b (List.mem_of_mem_take hb)) z _ (by omega), hz]
    exact ⟨rfl, by rw [contents_flatten]; simp⟩
  refine ⟨blocks, t, ?_, ?_, ?_, ?_, ?_⟩
  · rw [hall, g2]; simp
  · rw [hout, hall, pStream_header, g1, contents_flatten]
  · intro i level' file m z _ hm h1 h2 hf
    refine key i level' file (m ++ z) Res.err (by rw [hf]; simp) ?_
    rw [pBlocks, pWhatNext_other m z hm h1 h2]
  · intro i b level' file c z hb hc hne hf
    refine key i level' file (blockMagic ++ (c ++ (b.2 ++ z))) Res.err (by rw [hf]; simp) ?_
    have hg := g3 b (List.mem_of_getElem? hb) z
    rw [List.append_assoc] at hg
    rw [pBlocks, pWhatNext_block]
    simp only [pBlock_wrong_crc _ c (b.2 ++ z) z b.1 (natToBits_length _ _) hc hne hg]
  · intro i level' file z _ hf
    refine key i level' file (footerMagic ++ z) (Res.ok ()) (by rw [hf]; simp) ?_
    rw [pBlocks, pWhatNext_footer]

/-- **C74**, for release builds. -/
theorem C74_damaged_fields_are_detected_release (level : UInt8) (rest : List UInt8)
    (hok : resultOf Release.decodeStream ([0x42, 0x5a, 0x68, level] ++ rest) = Res.ok ()) :
    DetectsFieldDamage Release.decodeStream level ([0x42, 0x5a, 0x68, level] ++ rest) := by
  have hout : ∀ file, outputOf Release.decodeStream file = (Release.pStream (bytesBits file)).1.flatten := by
    intro file
    simp only [outputOf, Writer.empty, Release.decodeStream_reliable, List.nil_append]
    simp [Reader.ofBytes]
  have hres : ∀ file, resultOf Release.decodeStream file = (Release.pStream (bytesBits file)).2 := by
    intro file
    simp only [resultOf, Writer.empty, Release.decodeStream_reliable]
    simp [Reader.ofBytes]
  have hall : bytesBits ([0x42, 0x5a, 0x68, level] ++ rest) = streamHeader level ++ bytesBits rest := by
    rw [bytesBits_append]; rfl
  rw [hres, hall, Release.pStream_header] at hok
  obtain ⟨blocks, tail, g1, g2, g3, g4, g5, g6⟩ := Release.pBlocks_splits ((bytesBits rest).length + 1) (bytesBits rest) (by omega)
  obtain ⟨t, rfl⟩ := g6 hok
  -- the blocks before the damage are read
  have key : ∀ (i : Nat) (level' : UInt8) (file : List UInt8) (z : List Bool) (r : Res Unit),
      bytesBits file = streamHeader level' ++ blockFrames (blocks.take i) ++ z →
      Release.pBlocks (z.length + 1) z = ([], r) →
      resultOf Release.decodeStream file = r ∧ outputOf Release.decodeStream file = contents (blocks.take i) := by
    intro i level' file z r hf hz
    rw [hres, hout, hf, List.append_assoc, Release.pStream_header,
      Release.pBlocks_append _ (fun b hb => g3 b (List.mem_of_mem_take hb)) z _ (by omega), hz]
    exact ⟨rfl, by rw [contents_flatten]; simp⟩
  refine ⟨blocks, t, ?_, ?_, ?_, ?_, ?_⟩
  · rw [hall, g2]; simp
  · rw [hout, hall, Release.pStream_header, g1, contents_flatten]
  · intro i level' file m z _ hm h1 h2 hf
    refine key i level' file (m ++ z) Res.err (by rw [hf]; simp) ?_
    rw [Release.pBlocks, pWhatNext_other m z hm h1 h2]
  · intro i b level' file c z hb hc hne hf
    refine key i level' file (blockMagic ++ (c ++ (b.2 ++ z))) Res.err (by rw [hf]; simp) ?_
    have hg := g3 b (List.mem_of_getElem? hb) z
    rw [List.append_assoc] at hg
    rw [Release.pBlocks, pWhatNext_block]
    simp only [Release.pBlock_wrong_crc _ c (b.2 ++ z) z b.1 (natToBits_length _ _) hc hne hg]
  · intro i level' file z _ hf
    refine key i level' file (footerMagic ++ z) (Res.ok ()) (by rw [hf]; simp) ?_
    rw [Release.pBlocks, pWhatNext_footer]

/-- Number of positions at which two bit strings differ. -/
def flips (a b : List Bool) : Nat := (List.zipWith (fun x y => x != y) a b).count true

/-- **C74**, few flipped bits: a magic number of either kind in which 1 to 19 bits were flipped is none, so that the
damage is detected; 20 flipped bits can turn one magic number into the other. -/
theorem C74_few_flips_are_no_magic (m : List Bool) (hm : m.length = 48)
    (h : 1 ≤ flips m blockMagic ∧ flips m blockMagic ≤ 19 ∨ 1 ≤ flips m footerMagic ∧ flips m footerMagic ≤ 19) :
    m ≠ blockMagic ∧ m ≠ footerMagic ∧ flips footerMagic blockMagic = 20 := by
  refine ⟨?_, ?_, by decide⟩
  · rintro rfl
    rw [show flips blockMagic blockMagic = 0 by decide, show flips blockMagic footerMagic = 20 by decide] at h
    omega
  · rintro rfl
    rw [show flips footerMagic blockMagic = 20 by decide, show flips footerMagic footerMagic = 0 by decide] at h
    omega

/-- The hypotheses are met: the stream for the byte 97; its block magic damaged, its checksum damaged, and its block
magic replaced by the end-of-stream magic. -/
example : sampleA.take 4 = [0x42, 0x5a, 0x68, 0x39] ∧ resultOf decodeStream sampleA = Res.ok () ∧
    resultOf Release.decodeStream sampleA = Res.ok () ∧ outputOf decodeStream sampleA = [97] ∧
    resultOf decodeStream (sampleA.set 4 0x30) = Res.err ∧ resultOf decodeStream (sampleA.set 10 0) = Res.err ∧
    outputOf decodeStream (sampleA.set 10 0) = [] ∧
    resultOf decodeStream (sampleA.take 4 ++ [0x17, 0x72, 0x45, 0x38, 0x50, 0x90]) = Res.ok () ∧
    1 ≤ flips (bytesBits [0x30, 0x41, 0x59, 0x26, 0x53, 0x59]) blockMagic := by
  decide +kernel

end Ribzip2
