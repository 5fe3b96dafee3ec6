import Verif.Proofs.Messages
import Verif.Props.Recover
/- Property C82: what `decode_stream` prints on standard output. -/
namespace Ribzip2
open Spec

/-- `decode_stream` of a debug and of a release build, with the lines it prints. -/
abbrev debugPrinting : Reader → Writer → Writer × Res Unit × List String := decodeStreamM decodeBlock
abbrev releasePrinting : Reader → Writer → Writer × Res Unit × List String := decodeStreamM Release.decodeBlock

/-- The claim about the lines that a decoder prints (`full` is the decoder `decode` together with the lines):

* it does what the decoder does;
* it prints at most one line, and none when it returns Ok or panics;
* on an input that is not `B`, `Z`, `h` and one more byte: one line, unless the input has less than four bytes;
* on an input that starts like this, into a writer that accepts everything: the input continues with the blocks that
  are written, and there is a line exactly if 48 or more bits follow that begin with neither magic number. -/
def PrintsExactly (decode : Reader → Writer → Writer × Res Unit)
    (full : Reader → Writer → Writer × Res Unit × List String) : Prop :=
  (∀ r w, ((full r w).1, (full r w).2.1) = decode r w) ∧
  (∀ r w, (full r w).2.2.length ≤ 1 ∧ ((full r w).2.1 ≠ Res.err → (full r w).2.2 = [])) ∧
  (∀ r w, (¬ ∃ level rest, delivered r.events = 0x42 :: 0x5a :: 0x68 :: level :: rest) →
    (full r w).2.2 = if 4 ≤ (delivered r.events).length then ["Not a valid bz2 file"] else []) ∧
  (∀ r out level rest, delivered r.events = 0x42 :: 0x5a :: 0x68 :: level :: rest →
    ∃ (blocks : List (List UInt8 × List Bool)) (tail : List Bool),
      inputBits r = streamHeader level ++ blockFrames blocks ++ tail ∧
      (full r ⟨out, []⟩).1.out = out ++ contents blocks ∧
      (full r ⟨out, []⟩).2.2 = if 48 ≤ tail.length ∧ tail.take 48 ≠ blockMagic ∧ tail.take 48 ≠ footerMagic
        then ["Expected block start or stream end"] else [])

theorem printsExactly (block : BitReader → Writer → Writer × Res BitReader) (hB : BlockSound block)
    (decode : Reader → Writer → Writer × Res Unit)
    (hd : ∀ r w, ((decodeStreamM block r w).1, (decodeStreamM block r w).2.1) = decode r w) :
    PrintsExactly decode (decodeStreamM block) := by
  have hbits : ∀ r : Reader, (BitReader.fromReader r).bits = bytesBits (delivered r.events) := fun r => by simp
  refine ⟨hd, fun r w => ?_, fun r w h => ?_, fun r out level rest h => ?_⟩
  · have hs := readFileHeaderM_snd (BitReader.fromReader r)
    rw [← readFileHeaderM_fst] at hs
    unfold decodeStreamM
    generalize readFileHeaderM (BitReader.fromReader r) = x at hs
    rcases x with ⟨br | _ | _ | _, lines⟩
    · have hl : lines = [] := by
        rcases hs with ⟨h, -⟩ | ⟨-, h, -⟩
        · exact h
        · simp at h
      subst hl
      simp only [List.nil_append]
      rcases decodeLoopM_lines block br.fuel br w with h | ⟨h, h2⟩
      · exact ⟨by rw [h]; simp, fun _ => h⟩
      · exact ⟨by rw [h]; simp, fun h3 => absurd h2 h3⟩
    · simp only [ne_eq, not_true_eq_false, false_implies, and_true]
      rcases hs with ⟨h, -⟩ | ⟨h, -, -⟩ <;> (simp only at h; rw [h]; simp)
    all_goals
      have hl : lines = [] := by
        rcases hs with ⟨h, -⟩ | ⟨-, h, -⟩
        · exact h
        · simp at h
      subst hl
      exact ⟨by simp, fun _ => rfl⟩
  · have hs := readFileHeaderM_snd (BitReader.fromReader r)
    have hp := pHeader_eq (BitReader.fromReader r)
    rw [hbits] at hp hs
    have he : readFileHeader (BitReader.fromReader r) = Res.err := by
      rcases hr : readFileHeader (BitReader.fromReader r) with br | _ | _ | _
      · exfalso
        rw [hr] at hp
        obtain ⟨level, hl⟩ := pHeader_inv hp
        refine h ⟨level, (delivered r.events).drop 4, ?_⟩
        have h4 : 4 ≤ (delivered r.events).length := by
          have h1 := congrArg List.length hl
          have h3 : (streamHeader level).length = 32 := by simp [streamHeader, bytesBits]
          rw [List.length_append, bytesBits_length_eq] at h1
          omega
        have h5 : bytesBits ((delivered r.events).take 4) = bytesBits [0x42, 0x5a, 0x68, level] := by
          have h1 := congrArg (List.take 32) hl
          rw [List.take_left' (by simp [streamHeader, bytesBits])] at h1
          rw [← List.take_append_drop 4 (delivered r.events), bytesBits_append, List.take_left'] at h1
          · exact h1
          · rw [bytesBits_length_eq, List.length_take]
            omega
        have h6 := bytesBits_inj h5
        rw [← List.take_append_drop 4 (delivered r.events), h6]
        simp
      · rfl
      · rw [hr] at hp
        exact absurd hp (pHeader_ne _).2
      · rw [hr] at hp
        exact absurd hp (pHeader_ne _).1
    unfold decodeStreamM
    rw [← readFileHeaderM_fst] at he hs
    generalize readFileHeaderM (BitReader.fromReader r) = x at hs he
    rcases x with ⟨x, lines⟩
    simp only at he hs
    subst he
    simp only
    rw [bytesBits_length_eq] at hs
    rcases hs with ⟨h1, h2⟩ | ⟨h1, -, h2⟩
    · rw [if_neg (fun hc => by have := h2 rfl; omega)]
      exact h1
    · rw [if_pos (by omega)]
      exact h1
  · have hs := readFileHeaderM_snd (BitReader.fromReader r)
    have hp := pHeader_eq (BitReader.fromReader r)
    have hin : inputBits r = streamHeader level ++ bytesBits rest := by
      rw [inputBits, h, streamHeader, ← bytesBits_append]
      rfl
    rw [hbits, ← inputBits, hin, pHeader_append] at hp
    unfold decodeStreamM
    rw [← readFileHeaderM_fst] at hp hs
    generalize readFileHeaderM (BitReader.fromReader r) = x at hs hp
    rcases x with ⟨br | _ | _ | _, lines⟩
    · have hl : lines = [] := by
        rcases hs with ⟨h, -⟩ | ⟨-, h, -⟩
        · exact h
        · simp at h
      subst hl
      simp only [List.nil_append, Res.ok.injEq] at hp ⊢
      obtain ⟨blocks, tail, g1, g2, g3⟩ := decodeLoopM_exact block hB br.fuel br out br.bits_lt_fuel
      refine ⟨blocks, tail, ?_, g2, g3⟩
      rw [hin, hp, g1, List.append_assoc]
    all_goals simp at hp

/-- **C82 is false**: the decoder does print. A damaged stream with a good block: the content of the block has been
written when the line is printed, so that a program that decompresses to standard output mixes the two. -/
theorem C82_refuted : ¬ ∀ r w, (debugPrinting r w).2.2 = [] := by
  intro h
  have := h (Reader.ofBytes [1, 2, 3, 4]) Writer.empty
  revert this
  decide +kernel

/-- **C82 (partial).** What is printed, exactly: nothing on success. -/
theorem C82_what_is_printed_partial : PrintsExactly decodeStream debugPrinting :=
  printsExactly decodeBlock blockSound decodeStream decodeStreamM_fst

/-- **C82 (partial)**, for release builds. -/
theorem C82_what_is_printed_release_partial : PrintsExactly Release.decodeStream releasePrinting :=
  printsExactly Release.decodeBlock blockSound_release Release.decodeStream decodeStreamM_release

/-- A good stream; the same stream with a damaged end-of-stream magic, which is decoded, and then a line is printed;
other data; a stream that is too short. -/
example : debugPrinting (Reader.ofBytes sampleA) Writer.empty = (⟨[97], []⟩, Res.ok (), []) ∧
    debugPrinting (Reader.ofBytes (sampleA.set 28 0)) Writer.empty
      = (⟨[97], []⟩, Res.err, ["Expected block start or stream end"]) ∧
    debugPrinting (Reader.ofBytes [1, 2, 3, 4]) Writer.empty = (⟨[], []⟩, Res.err, ["Not a valid bz2 file"]) ∧
    debugPrinting (Reader.ofBytes [0x42, 0x5a]) Writer.empty = (⟨[], []⟩, Res.err, []) := by
  decide +kernel

end Ribzip2
