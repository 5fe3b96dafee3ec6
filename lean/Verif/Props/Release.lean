import Verif.Proofs.Release
import Verif.Props.Decode
import Verif.Props.RoundTrip
/-
C62: the decoder of a release build (wrapping arithmetic, `Release.decodeStream`) and the decoder of a build
with overflow checks (`decodeStream`).  C63: the guarantees of C13, C15-C18 for the release build.
-/
namespace Ribzip2
open Spec

/-! ### C62 -/

/-- **C62.** For every reader and every writer: whenever `decode_stream` does not panic in a build with
overflow checks, a release build does exactly the same -- same outcome, same bytes given to the writer, same
calls of the writer. -/
theorem C62_release_agrees (r : Reader) (w : Writer) (h : (decodeStream r w).2 ≠ Res.panic) :
    Release.decodeStream r w = decodeStream r w := by
  rw [Release.decodeStream_eq]
  rw [decodeStream_eq] at *
  generalize bytesBits (delivered r.events) = bs at *
  obtain ⟨h1, t, ht⟩ := Release.agree_stream bs
  by_cases hp : (pStream bs).2 = Res.panic
  · rw [← ht, Release.writeAll_append]
    generalize writeAll w (pStream bs).1 = x at *
    obtain ⟨w', (_ | _ | _ | _)⟩ := x
    · exact absurd hp (by simpa using h)
    all_goals simp
  · rw [h1 hp]; rfl

/-- **C62.** Whatever happens: the bytes written by the checked build are a prefix of those written by the
release build (a panic of the checked build costs output, it never changes output). -/
theorem C62_checked_output_is_a_prefix (r : Reader) :
    (decodeStream r Writer.empty).1.out <+: (Release.decodeStream r Writer.empty).1.out := by
  simp only [Writer.empty, decodeStream_reliable, Release.decodeStream_reliable, List.nil_append]
  obtain ⟨t, ht⟩ := (Release.agree_stream (bytesBits (delivered r.events))).2
  rw [← ht]
  simp

/-- **C62.** Whatever the checked build decodes, the release build decodes to the same bytes. -/
theorem C62_release_decodes (bytes d : List UInt8) (h : decodeBytes bytes = Res.ok d) :
    Release.decodeBytes bytes = Res.ok d := by
  have e : Release.decodeStream (Reader.ofBytes bytes) Writer.empty
      = decodeStream (Reader.ofBytes bytes) Writer.empty := by
    apply C62_release_agrees
    intro hp
    unfold decodeBytes at h
    generalize decodeStream (Reader.ofBytes bytes) Writer.empty = x at *
    obtain ⟨w, (_ | _ | _ | _)⟩ := x <;> simp at hp h
  rw [← h, Release.decodeBytes, e, decodeBytes]
  rfl

/-- A stream for the file `a` in which the code lengths of the first table go 1, 0, -1, 0, 1 before the
first length is taken. -/
def sampleBelowZero : List UInt8 :=
  [66, 90, 104, 57, 49, 65, 89, 38, 83, 89, 25, 147, 155, 107, 0, 0, 0, 1, 0, 32, 0, 32, 0, 32, 253, 32, 40, 98,
   238, 72, 167, 10, 18, 3, 50, 115, 109, 96]

/-- **C62.** The condition is needed: there is an input for which the checked build panics and the release
build returns a file. -/
theorem C62_release_accepts_more : ∃ bytes, decodeBytes bytes = Res.panic ∧
    Release.decodeBytes bytes = Res.ok [97] :=
  ⟨sampleBelowZero, by decide +kernel, by decide +kernel⟩

/-- C62 is not vacuous: both builds decode the sample, and both reject it with a flipped CRC. -/
example : decodeStream (Reader.ofBytes sampleA) Writer.empty = (⟨[97], []⟩, Res.ok ()) ∧
    Release.decodeStream (Reader.ofBytes sampleA) Writer.empty = (⟨[97], []⟩, Res.ok ()) ∧
    (decodeStream (Reader.ofBytes (sampleA.set 10 24)) Writer.empty).2 = Res.err := by decide +kernel

/-- **C62**, round trip of the release decoder (the encoder never panics, C39, so that it is the same in both
builds): C01 in its partial form, for the release build. -/
theorem C62_release_round_trip_partial (dist : Distance) (d : List UInt8) (t : Nat) (ht : 1 ≤ t)
    (h : ∀ b ∈ blocksOf d, TransformSafe (rle1Encode b) ∧ noCountCollision (runs b) = true) :
    ∃ bytes, encodeBytes dist d t Strategy.single = Res.ok bytes ∧ Release.decodeBytes bytes = Res.ok d := by
  obtain ⟨bytes, e1, e2⟩ := C01_round_trip_partial dist d t ht h
  exact ⟨bytes, e1, C62_release_decodes bytes d e2⟩

/-- Its hypotheses are met by "hello world!" and a zero byte. -/
example (dist : Distance) : ∃ bytes, encodeBytes dist
      ([104, 101, 108, 108, 111, 32, 119, 111, 114, 108, 100, 33] ++ [0]) 3 Strategy.single = Res.ok bytes ∧
    Release.decodeBytes bytes = Res.ok ([104, 101, 108, 108, 111, 32, 119, 111, 114, 108, 100, 33] ++ [0]) := by
  obtain ⟨bytes, e1, e2⟩ := C01_round_trip_terminated_partial dist
    [104, 101, 108, 108, 111, 32, 119, 111, 114, 108, 100, 33] 0 3 (by decide) (by decide) (by decide +kernel)
    (by decide +kernel)
  exact ⟨bytes, e1, C62_release_decodes _ _ e2⟩

/-! ### C63 -/

/-- **C63** (C13 for release builds). Everything written is the content of blocks of the input whose stored
CRC is the CRC of what was written for them; with Ok the input is a header, these blocks and a footer. -/
theorem C63_written_blocks_have_the_stored_crc (r : Reader) :
    ∃ blocks : List (List UInt8 × List Bool),
      (Release.decodeStream r Writer.empty).1.out = contents blocks ∧
      ((Release.decodeStream r Writer.empty).2 = Res.ok () →
        ∃ level tail, inputBits r = streamHeader level ++ blockFrames blocks ++ footerMagic ++ tail) ∧
      (blocks ≠ [] → ∃ level tail, inputBits r = streamHeader level ++ blockFrames blocks ++ tail) := by
  simp only [Writer.empty, Release.decodeStream_reliable, inputBits]
  generalize bytesBits (delivered r.events) = bs
  unfold Release.pStream
  rcases h : pHeader bs with b | _ | _ | _
  · obtain ⟨level, hl⟩ := pHeader_inv h
    obtain ⟨blocks, tail, g1, g2, g3⟩ := Release.pBlocks_frames (b.length + 1) b
    refine ⟨blocks, by simp [g1, contents, List.flatMap_def], ?_, ?_⟩
    · intro hok
      obtain ⟨t, ht⟩ := g3 hok
      exact ⟨level, t, by rw [hl, g2, ht]; simp⟩
    · intro _
      exact ⟨level, tail, by rw [hl, g2]; simp⟩
  all_goals exact ⟨[], by simp [contents], by simp, by simp⟩

/-- **C63** (C15 for release builds). If decoding a prefix returns Ok, decoding the whole does the same. -/
theorem C63_ok_on_prefix_is_ok_on_whole (cut whole : Reader) (s : List UInt8)
    (hpre : delivered whole.events = delivered cut.events ++ s)
    (hok : (Release.decodeStream cut Writer.empty).2 = Res.ok ()) :
    Release.decodeStream whole Writer.empty = Release.decodeStream cut Writer.empty := by
  simp only [Writer.empty, Release.decodeStream_reliable] at *
  rw [hpre, bytesBits_append, (Release.pStream_mono _ _).2 hok]

/-- **C63** (C16 for release builds). What is written for a prefix of the input is a prefix of what is
written for the input. -/
theorem C63_output_on_prefix_is_prefix (cut whole : Reader) (s : List UInt8)
    (hpre : delivered whole.events = delivered cut.events ++ s) :
    (Release.decodeStream cut Writer.empty).1.out <+: (Release.decodeStream whole Writer.empty).1.out := by
  simp only [Writer.empty, Release.decodeStream_reliable, List.nil_append]
  rw [hpre, bytesBits_append]
  obtain ⟨t, ht⟩ := (Release.pStream_mono (bytesBits (delivered cut.events)) (bytesBits s)).1
  rw [← ht]
  simp

/-- **C63** (C17 for release builds, what holds of it). A panic is only possible inside a block. -/
theorem C63_panic_only_inside_a_block (r : Reader)
    (hp : (Release.decodeStream r Writer.empty).2 = Res.panic) :
    ∃ level blocks tail, (Release.decodeStream r Writer.empty).1.out = contents blocks ∧
      inputBits r = streamHeader level ++ blockFrames blocks ++ blockMagic ++ tail := by
  simp only [Writer.empty, Release.decodeStream_reliable, List.nil_append, inputBits] at *
  generalize bytesBits (delivered r.events) = bs at *
  unfold Release.pStream at *
  rcases hh : pHeader bs with b | _ | _ | _ <;> simp only [hh] at hp ⊢
  · obtain ⟨level, hl⟩ := pHeader_inv hh
    have key : ∀ fuel b, (Release.pBlocks fuel b).2 = Res.panic → ∃ blocks t,
        (Release.pBlocks fuel b).1.flatten = contents blocks ∧
        b = blockFrames blocks ++ blockMagic ++ t := by
      intro fuel
      induction fuel with
      | zero => intro b hb; simp [Release.pBlocks] at hb
      | succ fuel ih =>
        intro b hb
        rcases hwn : pWhatNext b with ⟨t, mid⟩ | _ | _ | _
        · rcases pWhatNext_inv hwn with ⟨rfl, e⟩ | ⟨rfl, e⟩
          · rcases hbn : Release.pBlock mid with ⟨d, rest⟩ | _ | _ | _
            · simp only [Release.pBlocks, hwn, hbn] at hb
              obtain ⟨blocks, t, i1, i2⟩ := ih rest hb
              obtain ⟨body, hbody⟩ := Release.pBlock_crc hbn
              refine ⟨(d, body) :: blocks, t, ?_, ?_⟩
              · simp [Release.pBlocks, hwn, hbn, contents, i1]
              · rw [e, hbody, i2]; simp [blockFrames, blockFrame]
            · simp [Release.pBlocks, hwn, hbn] at hb
            · exact ⟨[], mid, by simp [Release.pBlocks, hwn, hbn, contents], by simpa [blockFrames] using e⟩
            · simp [Release.pBlocks, hwn, hbn] at hb
          · simp [Release.pBlocks, hwn] at hb
        · simp [Release.pBlocks, hwn] at hb
        · exact absurd hwn (pWhatNext_ne b).2
        · simp [Release.pBlocks, hwn] at hb
    obtain ⟨blocks, t, k1, k2⟩ := key _ _ hp
    exact ⟨level, blocks, t, k1, by rw [hl, k2]; simp⟩
  · simp at hp
  · exact absurd hh (pHeader_ne bs).2
  · simp at hp

/-- **C63** (C18 for release builds). `decode_stream` terminates on every finite input. -/
theorem C63_decode_terminates (r : Reader) (w : Writer) : (Release.decodeStream r w).2 ≠ Res.div := by
  rw [Release.decodeStream_eq]
  have := Release.pStream_ne_div (bytesBits (delivered r.events))
  rcases writeAll w (Release.pStream (bytesBits (delivered r.events))).1 with ⟨w', (_ | _ | _ | _)⟩ <;>
    simp [this]

/-- C63 is not vacuous: on the stream that only the release build accepts, cut inside the footer, cut inside
the block, and continued. -/
example : Release.decodeStream (Reader.ofBytes (sampleBelowZero.take 29)) Writer.empty = (⟨[97], []⟩, Res.err) ∧
    (Release.decodeStream (Reader.ofBytes (sampleBelowZero.take 20)) Writer.empty).2 = Res.panic ∧
    (Release.decodeStream (Reader.ofBytes (sampleBelowZero ++ [1, 2])) Writer.empty).2 = Res.ok () := by
  decide +kernel

/-- Instances of C63_ok_on_prefix_is_ok_on_whole, C63_output_on_prefix_is_prefix (a stream that only a release build accepts, cut
or with more behind it) and C63_panic_only_inside_a_block. -/
example : Release.decodeStream (Reader.ofBytes (sampleBelowZero ++ [1, 2])) Writer.empty
      = Release.decodeStream (Reader.ofBytes sampleBelowZero) Writer.empty ∧
    (Release.decodeStream (Reader.ofBytes (sampleBelowZero.take 20)) Writer.empty).1.out
      <+: (Release.decodeStream (Reader.ofBytes sampleBelowZero) Writer.empty).1.out ∧
    ∃ level blocks tail, inputBits (Reader.ofBytes (sampleBelowZero.take 20))
      = streamHeader level ++ blockFrames blocks ++ blockMagic ++ tail := by
  refine ⟨C63_ok_on_prefix_is_ok_on_whole _ _ [1, 2] (by decide +kernel) (by decide +kernel),
    C63_output_on_prefix_is_prefix _ _ (sampleBelowZero.drop 20) (by decide +kernel), ?_⟩
  obtain ⟨level, blocks, tail, -, h⟩ := C63_panic_only_inside_a_block (Reader.ofBytes (sampleBelowZero.take 20)) (by decide +kernel)
  exact ⟨level, blocks, tail, h⟩

end Ribzip2
