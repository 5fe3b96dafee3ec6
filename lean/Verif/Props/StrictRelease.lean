import Verif.Proofs.StrictRelease
import Verif.Props.Strict
import Verif.Props.Release
/- Property C85 for release builds: what `decode_stream` accepts there. -/
namespace Ribzip2
open Spec

theorem Release.pBlocks_accepts (level : Nat) (hlv : level ≤ 9) (fuel : Nat) (bs : List Bit)
    (h : (Release.pBlocks fuel bs).2 = Res.ok ()) :
    ∃ blocks : List (List UInt8 × List Bool), (∀ b ∈ blocks, ValidBody (100000 * level) b.1 b.2) ∧
      ((∃ (crc : BitVec 32) (bits : List Bool), bs = blockFrames blocks ++ blockMagic ++ natToBits 32 crc.toNat ++ bits ∧
          (BlockDeviates level bits ∨ BlockWraps bits)) ∨
        ∃ tail, bs = blockFrames blocks ++ footerMagic ++ tail ∧
          (Release.pBlocks fuel bs).1.flatten = contents blocks) := by
  induction fuel generalizing bs with
  | zero => simp [Release.pBlocks] at h
  | succ fuel ih =>
    rw [Release.pBlocks] at h
    rcases hw : pWhatNext bs with ⟨ty, mid⟩ | _ | _ | _ <;> simp only [hw, reduceCtorEq] at h
    rcases pWhatNext_inv hw with ⟨rfl, e⟩ | ⟨rfl, e⟩
    · simp only at h
      rcases hb : Release.pBlock mid with ⟨d, rest⟩ | _ | _ | _ <;> simp only [hb, reduceCtorEq] at h
      obtain ⟨bits, b1, hdev | hdev | ⟨body, b2, b3⟩⟩ := Release.pBlock_accepts level hlv hb
      · refine ⟨[], by simp, Or.inl ⟨Spec.crc32 d, bits, ?_, Or.inl hdev⟩⟩
        rw [e, b1]; simp [blockFrames]
      · refine ⟨[], by simp, Or.inl ⟨Spec.crc32 d, bits, ?_, Or.inr hdev⟩⟩
        rw [e, b1]; simp [blockFrames]
      · obtain ⟨blocks, i1, i2⟩ := ih rest h
        refine ⟨(d, body) :: blocks, by
          intro x hx; rcases List.mem_cons.1 hx with rfl | hx
          exacts [b3, i1 x hx], ?_⟩
        have hf : ∀ x, blockFrames ((d, body) :: blocks) ++ x
            = blockMagic ++ (natToBits 32 (Spec.crc32 d).toNat ++ (body ++ (blockFrames blocks ++ x))) := by
          intro x; simp [blockFrames, blockFrame]
        rcases i2 with ⟨crc, bits', j1, j2⟩ | ⟨tail, j1, j2⟩
        · refine Or.inl ⟨crc, bits', ?_, j2⟩
          rw [e, b1, b2, j1]
          simp only [List.append_assoc]
          rw [hf]
        · refine Or.inr ⟨tail, ?_, ?_⟩
          · rw [e, b1, b2, j1]
            simp only [List.append_assoc]
            rw [hf]
          · rw [Release.pBlocks, hw]
            simp only [hb, List.flatten_cons, j2]
            simp [contents]
    · refine ⟨[], by simp, Or.inr ⟨mid, by rw [e]; simp [blockFrames], ?_⟩⟩
      rw [Release.pBlocks, hw]
      simp [contents]

/-- **C85**, partial, for release builds: whatever `decode_stream` accepts there is a valid bzip2 stream for the data it
returns, or deviates from the format as in `C85_accepted_partial`, or has a selector coded with 256 or more ones or a code
length that passes below 0 (`StreamWraps`). Missing: the full property would be without the last two alternatives. -/
theorem C85_release_accepted_partial (bytes d : List UInt8) (h : Release.decodeBytes bytes = Res.ok d) :
    ValidStream d bytes ∨ StreamDeviates bytes ∨ StreamWraps bytes := by
  rw [Release.decodeBytes_eq] at h
  unfold Release.pStream at h
  rcases hh : pHeader (bytesBits bytes) with b | _ | _ | _ <;> simp only [hh, Res.err_bind, Res.panic_bind, Res.div_bind,
    reduceCtorEq] at h
  obtain ⟨lv, hl⟩ := pHeader_inv hh
  obtain ⟨more, hmore⟩ := header_bytes hl
  by_cases hlow : lv < 0x31 ∨ 0x39 < lv
  · exact Or.inr (Or.inl (StreamDeviates.level lv more hmore hlow))
  obtain ⟨level, l1, l2, rfl⟩ : ∃ level, 1 ≤ level ∧ level ≤ 9 ∧ lv = UInt8.ofNat (0x30 + level) := by
    simp only [not_or, UInt8.not_lt] at hlow
    obtain ⟨g1, g2⟩ := hlow
    rw [UInt8.le_iff_toNat_le] at g1 g2
    have g1 : 49 ≤ lv.toNat := g1
    have g2 : lv.toNat ≤ 57 := g2
    refine ⟨lv.toNat - 48, by omega, by omega, ?_⟩
    rw [show 0x30 + (lv.toNat - 48) = lv.toNat by omega]
    simp
  rcases hp : (Release.pBlocks (b.length + 1) b).2 with u | _ | _ | _ <;> simp only [hp, Res.ok_bind, Res.err_bind,
    Res.panic_bind, Res.div_bind, reduceCtorEq, Res.ok.injEq] at h
  obtain ⟨blocks, hv, ⟨crc, bits, j1, j2 | j2⟩ | ⟨tail, j1, j2⟩⟩ := Release.pBlocks_accepts level l2 _ b hp
  · exact Or.inr (Or.inl (StreamDeviates.block level blocks crc bits l1 l2 hv (by rw [hl, j1]; simp) j2))
  · exact Or.inr (Or.inr ⟨level, blocks, crc, bits, l1, l2, hv, by rw [hl, j1]; simp, j2⟩)
  · have hbits : bytesBits bytes = streamHeader (UInt8.ofNat (0x30 + level)) ++ blockFrames blocks ++ footerMagic ++ tail := by
      rw [hl, j1]; simp
    by_cases hk : ∃ k < 8, tail = natToBits 32 (streamCrc blocks).toNat ++ List.replicate k false
    · obtain ⟨k, k1, rfl⟩ := hk
      refine Or.inl ⟨level, blocks, ⟨l1, l2, k, k1, by rw [hbits]; simp, by rw [bytesBits_length]; exact ⟨_, rfl⟩⟩, ?_, hv⟩
      rw [← j2, h]
    · exact Or.inr (Or.inl (StreamDeviates.footer level blocks tail l1 l2 hv hbits (fun k k1 e => hk ⟨k, k1, e⟩)))

/-- It applies to a stream that the checked build does not accept. -/
example : ValidStream [97] sampleBelowZero ∨ StreamDeviates sampleBelowZero ∨ StreamWraps sampleBelowZero :=
  C85_release_accepted_partial _ _ (by decide +kernel)

/-- A stream with a selector that is coded with 256 ones. -/
def sampleManyOnes : List UInt8 :=
  [66, 90, 104, 57, 49, 65, 89, 38, 83, 89, 25, 147, 155, 107, 0, 0, 0, 1, 0, 32, 0, 32, 0, 63, 255, 255, 255,
   255, 255, 255, 255, 255, 255, 255, 255, 255, 255, 255, 255, 255, 255, 255, 255, 255, 255, 255, 255, 255,
   255, 255, 255, 255, 255, 255, 255, 224, 160, 40, 98, 238, 72, 167, 10, 18, 3, 50, 115, 109, 96]

/-- A selector coded with 256 ones is accepted, too, by release builds only. -/
example :
    Release.decodeBytes sampleManyOnes = Res.ok [97] ∧
    decodeBytes sampleManyOnes = Res.panic := by decide +kernel

end Ribzip2
