import Verif.Proofs.RecoverRelease
import Verif.Props.Decode
import Verif.Props.Cli
/- Property C70: the blocks that are complete are recovered from a damaged file. -/
namespace Ribzip2
open Spec

/-- What `decode` gives to a writer for this file, and how it ends. -/
abbrev outputOf (decode : Reader → Writer → Writer × Res Unit) (file : List UInt8) : List UInt8 :=
  (decode (Reader.ofBytes file) Writer.empty).1.out

abbrev resultOf (decode : Reader → Writer → Writer × Res Unit) (file : List UInt8) : Res Unit :=
  (decode (Reader.ofBytes file) Writer.empty).2

/-- The claim of C70 for a decoder and a file `whole` that starts with a stream header: the file is a header, then
blocks (each a magic number, the CRC of its content, and a body), then something else; the decoder writes the
contents of the blocks, and

* if the file is cut off after `n` bytes, exactly the blocks lying completely in the first `n` bytes;
* if it ends with Ok, the file continues with the end-of-stream magic, and the file cut off after `n` bytes is
  accepted exactly if that magic lies in the first `n` bytes;
* if the file is damaged in any way after the first `n` bytes, at least the blocks lying in the first `n` bytes. -/
def RecoversBlocks (decode : Reader → Writer → Writer × Res Unit) (level : UInt8) (whole : List UInt8) : Prop :=
  ∃ (blocks : List (List UInt8 × List Bool)) (tail : List Bool),
    bytesBits whole = streamHeader level ++ blockFrames blocks ++ tail ∧
    outputOf decode whole = contents blocks ∧
    (∀ n, ∃ i ≤ blocks.length, outputOf decode (whole.take n) = contents (blocks.take i) ∧
      (i = 0 ∨ 32 + (blockFrames (blocks.take i)).length ≤ 8 * n) ∧
      (i < blocks.length → 8 * n < 32 + (blockFrames (blocks.take (i + 1))).length)) ∧
    (resultOf decode whole = Res.ok () → (∃ t, tail = footerMagic ++ t) ∧
      ∀ n, resultOf decode (whole.take n) = Res.ok () ↔ 32 + (blockFrames blocks).length + 48 ≤ 8 * n) ∧
    (∀ n i file, whole.take n <+: file → 32 + (blockFrames (blocks.take i)).length ≤ 8 * n →
      contents (blocks.take i) <+: outputOf decode file)

theorem contents_flatten (blocks : List (List UInt8 × List Bool)) : contents blocks = (blocks.map (·.1)).flatten := by
  simp [contents, List.flatMap_def]

theorem bytesBits_length_eq (l : List UInt8) : (bytesBits l).length = 8 * l.length := by
  induction l with
  | nil => rfl
  | cons b l ih =>
    rw [show b :: l = [b] ++ l from rfl, bytesBits_append, List.length_append, ih, List.length_append,
      show (bytesBits [b]).length = 8 from by simp [bytesBits]]
    simp; omega

theorem blockFrames_take (blocks : List (List UInt8 × List Bool)) (i : Nat) :
    blockFrames (blocks.take i) <+: blockFrames blocks := by
  refine ⟨blockFrames (blocks.drop i), ?_⟩
  rw [blockFrames, blockFrames, ← List.flatMap_append, List.take_append_drop]
  rfl

/-- The bits after the stream header of the first bytes of a file. -/
theorem take_bits (level : UInt8) (rest : List UInt8) (n : Nat) (hn : 4 ≤ n) :
    bytesBits (([0x42, 0x5a, 0x68, level] ++ rest).take n) = streamHeader level ++ bytesBits (rest.take (n - 4)) := by
  obtain ⟨m, rfl⟩ := Nat.exists_eq_add_of_le' hn
  rw [show m + 4 - 4 = m by omega]
  simp only [List.cons_append, List.nil_append, List.take_succ_cons]
  rw [show (0x42 : UInt8) :: 0x5a :: 0x68 :: level :: rest.take m = [0x42, 0x5a, 0x68, level] ++ rest.take m from rfl,
    bytesBits_append]
  rfl

theorem bytesBits_prefix {a b : List UInt8} (h : a <+: b) : bytesBits a <+: bytesBits b := by
  obtain ⟨t, rfl⟩ := h
  exact ⟨bytesBits t, by rw [bytesBits_append]⟩

theorem pStream_header (level : UInt8) (bs : List Bit) :
    pStream (streamHeader level ++ bs) = pBlocks (bs.length + 1) bs := by
  rw [pStream, pHeader_append]

theorem Release.pStream_header (level : UInt8) (bs : List Bit) :
    Release.pStream (streamHeader level ++ bs) = Release.pBlocks (bs.length + 1) bs := by
  rw [Release.pStream, pHeader_append]

theorem pHeader_short (bs : List Bit) (h : bs.length < 32) : pHeader bs = Res.err := by
  rcases h1 : pHeader bs with b | _ | _ | _
  · obtain ⟨level, hl⟩ := pHeader_inv h1
    have := congrArg List.length hl
    have h3 : (streamHeader level).length = 32 := by simp [streamHeader, bytesBits]
    rw [List.length_append] at this
    omega
  · rfl
  · exact absurd h1 (pHeader_ne bs).2
  · exact absurd h1 (pHeader_ne bs).1

/-- **C70.** For every file that starts with a stream header -- complete, damaged or not ending at all. -/
theorem C70_complete_blocks_are_recovered (level : UInt8) (rest : List UInt8) :
    RecoversBlocks decodeStream level ([0x42, 0x5a, 0x68, level] ++ rest) := by
  have hout : ∀ file, outputOf decodeStream file = (pStream (bytesBits file)).1.flatten := by
    intro file
    simp only [outputOf, Writer.empty, decodeStream_reliable, List.nil_append]
    simp [Reader.ofBytes]
  have hres : ∀ file, resultOf decodeStream file = (pStream (bytesBits file)).2 := by
    intro file
    simp only [resultOf, Writer.empty, decodeStream_reliable]
    simp [Reader.ofBytes]
  have hall : bytesBits ([0x42, 0x5a, 0x68, level] ++ rest) = streamHeader level ++ bytesBits rest := by
    rw [bytesBits_append]; rfl
  obtain ⟨blocks, tail, g1, g2, g3, g4, g5, g6⟩ := pBlocks_splits ((bytesBits rest).length + 1) (bytesBits rest) (by omega)
  have hcut : ∀ n, bytesBits (rest.take n) <+: blockFrames blocks ++ tail := by
    intro n
    rw [← g2]
    exact bytesBits_prefix (List.take_prefix _ _)
  refine ⟨blocks, tail, ?_, ?_, fun n => ?_, fun hok => ?_, fun n i file hf hi => ?_⟩
  · rw [hall, g2, List.append_assoc]
  · rw [hout, hall, pStream_header, g1, contents_flatten]
  · rw [hout]
    by_cases hn : 4 ≤ n
    · rw [take_bits level rest n hn, pStream_header]
      obtain ⟨i, h1, h2, h3, h4⟩ := pBlocks_cutoff blocks g3 tail g4 _ (hcut (n - 4))
      refine ⟨i, h1, by rw [h2, contents_flatten], ?_, fun hi => ?_⟩
      · right
        rw [bytesBits_length_eq, List.length_take] at h3
        omega
      · have h5 := h4 hi
        rw [bytesBits_length_eq, List.length_take] at h5
        have h6 := congrArg List.length g2
        rw [bytesBits_length_eq, List.length_append] at h6
        have h7 := (blockFrames_take blocks (i + 1)).length_le
        omega
    · refine ⟨0, by omega, ?_, Or.inl rfl, fun _ => by omega⟩
      rw [pStream, pHeader_short _ (by rw [bytesBits_length_eq, List.length_take]; omega)]
      simp [contents]
  · rw [hres, hall, pStream_header] at hok
    obtain ⟨t, rfl⟩ := g6 hok
    refine ⟨⟨t, rfl⟩, fun n => ?_⟩
    rw [hres]
    by_cases hn : 4 ≤ n
    · rw [take_bits level rest n hn, pStream_header, pBlocks_cutoff_ok blocks g3 t _ (hcut (n - 4)),
        bytesBits_length_eq, List.length_take]
      have h6 := congrArg List.length g2
      have hm : footerMagic.length = 48 := by decide
      rw [bytesBits_length_eq, List.length_append, List.length_append] at h6
      omega
    · rw [pStream, pHeader_short _ (by rw [bytesBits_length_eq, List.length_take]; omega)]
      simp only [reduceCtorEq, false_iff]
      omega
  · have hn : 4 ≤ n := by omega
    have hb := bytesBits_prefix hf
    rw [take_bits level rest n hn] at hb
    have hpre : streamHeader level ++ blockFrames (blocks.take i) <+: bytesBits file := by
      refine List.IsPrefix.trans ((List.prefix_append_right_inj _).2 ?_) hb
      have h8 : blockFrames (blocks.take i) <+: bytesBits rest := by
        rw [g2]
        exact (blockFrames_take blocks i).trans ⟨tail, rfl⟩
      refine List.prefix_of_prefix_length_le h8 (bytesBits_prefix (List.take_prefix _ _)) ?_
      have h9 := h8.length_le
      rw [bytesBits_length_eq] at h9
      rw [bytesBits_length_eq, List.length_take]
      omega
    obtain ⟨z, hz⟩ := hpre
    rw [hout, ← hz, List.append_assoc, pStream_header,
      pBlocks_append _ (fun b hb => g3 b (List.mem_of_mem_take hb)) z _ (by omega), contents_flatten]
    simp

/-- **C70**, for release builds. -/
theorem C70_complete_blocks_are_recovered_release (level : UInt8) (rest : List UInt8) :
    RecoversBlocks Release.decodeStream level ([0x42, 0x5a, 0x68, level] ++ rest) := by
  have hout : ∀ file, outputOf Release.decodeStream file = (Release.pStream (bytesBits file)).1.flatten := by
    intro file
    simp only [outputOf, Writer.empty, Release.decodeStream_reliable, List.nil_append]
    simp [Reader.ofBytes]
  have hres : ∀ file, resultOf Release.decodeStream file = (Release.pStream (bytesBits file)).2 := by
    intro file
    simp only [resultOf, Writer.empty, Release.decodeStream_reliable]
    simp [Reader.ofBytes]
  have hall : bytesBits ([0x42, 0x5a, 0x68, level] ++ rest) = streamHeader level ++ bytesBits rest := by
    rw [bytesBits_append]; rfl
  obtain ⟨blocks, tail, g1, g2, g3, g4, g5, g6⟩ := Release.pBlocks_splits ((bytesBits rest).length + 1) (bytesBits rest) (by omega)
  have hcut : ∀ n, bytesBits (rest.take n) <+: blockFrames blocks ++ tail := by
    intro n
    rw [← g2]
    exact bytesBits_prefix (List.take_prefix _ _)
  refine ⟨blocks, tail, ?_, ?_, fun n => ?_, fun hok => ?_, fun n i file hf hi => ?_⟩
  · rw [hall, g2, List.append_assoc]
  · rw [hout, hall, Release.pStream_header, g1, contents_flatten]
  · rw [hout]
    by_cases hn : 4 ≤ n
    · rw [take_bits level rest n hn, Release.pStream_header]
      obtain ⟨i, h1, h2, h3, h4⟩ := Release.pBlocks_cutoff blocks g3 tail g4 _ (hcut (n - 4))
      refine ⟨i, h1, by rw [h2, contents_flatten], ?_, fun hi => ?_⟩
      · right
        rw [bytesBits_length_eq, List.length_take] at h3
        omega
      · have h5 := h4 hi
        rw [bytesBits_length_eq, List.length_take] at h5
        have h6 := congrArg List.length g2
        rw [bytesBits_length_eq, List.length_append] at h6
        have h7 := (blockFrames_take blocks (i + 1)).length_le
        omega
    · refine ⟨0, by omega, ?_, Or.inl rfl, fun _ => by omega⟩
      rw [Release.pStream, pHeader_short _ (by rw [bytesBits_length_eq, List.length_take]; omega)]
      simp [contents]
  · rw [hres, hall, Release.pStream_header] at hok
    obtain ⟨t, rfl⟩ := g6 hok
    refine ⟨⟨t, rfl⟩, fun n => ?_⟩
    rw [hres]
    by_cases hn : 4 ≤ n
    · rw [take_bits level rest n hn, Release.pStream_header, Release.pBlocks_cutoff_ok blocks g3 t _ (hcut (n - 4)),
        bytesBits_length_eq, List.length_take]
      have h6 := congrArg List.length g2
      have hm : footerMagic.length = 48 := by decide
      rw [bytesBits_length_eq, List.length_append, List.length_append] at h6
      omega
    · rw [Release.pStream, pHeader_short _ (by rw [bytesBits_length_eq, List.length_take]; omega)]
      simp only [reduceCtorEq, false_iff]
      omega
  · have hn : 4 ≤ n := by omega
    have hb := bytesBits_prefix hf
    rw [take_bits level rest n hn] at hb
    have hpre : streamHeader level ++ blockFrames (blocks.take i) <+: bytesBits file := by
      refine List.IsPrefix.trans ((List.prefix_append_right_inj _).2 ?_) hb
      have h8 : blockFrames (blocks.take i) <+: bytesBits rest := by
        rw [g2]
        exact (blockFrames_take blocks i).trans ⟨tail, rfl⟩
      refine List.prefix_of_prefix_length_le h8 (bytesBits_prefix (List.take_prefix _ _)) ?_
      have h9 := h8.length_le
      rw [bytesBits_length_eq] at h9
      rw [bytesBits_length_eq, List.length_take]
      omega
    obtain ⟨z, hz⟩ := hpre
    rw [hout, ← hz, List.append_assoc, Release.pStream_header,
      Release.pBlocks_append _ (fun b hb => g3 b (List.mem_of_mem_take hb)) z _ (by omega), contents_flatten]
    simp

/-- C70 is not vacuous: the sample is a header, one block and the footer; cut inside the footer, or with another
footer, the block is still recovered. -/
example : outputOf decodeStream (sampleA.take 28) = [97] ∧ resultOf decodeStream (sampleA.take 28) = Res.err ∧
    outputOf decodeStream (sampleA.take 26) = [] ∧
    outputOf decodeStream (sampleA.take 28 ++ [255, 255, 255, 255, 255, 255, 255]) = [97] := by
  decide +kernel

/-- **C70, on the command line.** `compress` was run on a file (any strategy, any number of threads) and the writes to the output file went
well, short, or wrong in any way, so that the run ended with status 0, panicked, or did not end; without these errors
the stream would have decoded to `d`. Then decompressing what the output file holds gives a prefix of `d`, and gives
Ok only with all of `d`. -/
theorem C70_after_a_failed_compress (threads : Nat) (strategy : Strategy) (env : ArgEnv) (p : Path) (w w' : World)
    (o : Outcome) (ho : o ≠ Outcome.fileError) (ha : Alone env)
    (h : (Command.compress threads strategy).one env p w = (w', o)) (i : Nat) (hi : w.fs.dir p = some i)
    (bytes d : List UInt8)
    (he : encodeStream euclid (env.reader (w.fs.data i)) Writer.empty threads strategy = (⟨bytes, []⟩, Res.ok ()))
    (hd : decodeBytes bytes = Res.ok d) :
    ∃ file, contentAt w'.fs (compressName p) = some file ∧ outputOf decodeStream file <+: d ∧
      (resultOf decodeStream file = Res.ok () → outputOf decodeStream file = d) := by
  obtain ⟨i', bytes', res, file, h1, h2, h3, ⟨s, hs⟩, -⟩ := C43_output_is_a_prefix threads strategy env p w w' o ho ha h
  rw [hi] at h1
  simp only [Option.some.injEq] at h1
  subst h1
  rw [he] at h2
  simp only [Prod.mk.injEq, Writer.mk.injEq, and_true] at h2
  obtain ⟨rfl, -⟩ := h2
  have hpre : delivered (Reader.ofBytes bytes).events = delivered (Reader.ofBytes file).events ++ s := by
    simp [Reader.ofBytes, ← hs]
  have hw : outputOf decodeStream bytes = d := by
    have h3 : decodeBytes bytes = match decodeStream (Reader.ofBytes bytes) Writer.empty with
      | (w, Res.ok _) => Res.ok w.out
      | (_, Res.err) => Res.err
      | (_, Res.panic) => Res.panic
      | (_, Res.div) => Res.div := rfl
    rw [h3] at hd
    generalize hx : decodeStream (Reader.ofBytes bytes) Writer.empty = x at hd
    obtain ⟨w1, (_ | _ | _ | _)⟩ := x <;> simp at hd
    simp only [outputOf]
    rw [hx, hd]
  refine ⟨file, h3, ?_, fun hok => ?_⟩
  · rw [← hw]
    exact C16_output_on_prefix_is_prefix _ _ s hpre
  · have h15 := C15_ok_on_prefix_is_ok_on_whole _ _ s hpre hok
    rw [← hw]
    simp only [outputOf]
    rw [h15]

/-- The hypotheses are met: the empty file, and a file system that fails on the first write. -/
example : ∃ w', (Command.compress 1 Strategy.single).one { calm with script := [FEvent.fail] } [97] ⟨twoFiles, []⟩
      = (w', Outcome.ok) ∧
    encodeStream euclid (calm.reader (twoFiles.data 0)) Writer.empty 1 Strategy.single
      = (⟨[0x42, 0x5a, 0x68, 0x39, 0x17, 0x72, 0x45, 0x38, 0x50, 0x90, 0, 0, 0, 0], []⟩, Res.ok ()) ∧
    decodeBytes [0x42, 0x5a, 0x68, 0x39, 0x17, 0x72, 0x45, 0x38, 0x50, 0x90, 0, 0, 0, 0] = Res.ok [] := by
  have hb : encodeStream euclid (Reader.ofBytes (twoFiles.data 0)) Writer.empty 1 Strategy.single
      = (⟨[0x42, 0x5a, 0x68, 0x39, 0x17, 0x72, 0x45, 0x38, 0x50, 0x90, 0, 0, 0, 0], []⟩, Res.ok ()) := rfl
  obtain ⟨w', h1, -⟩ := C43_refuted_every_small_file 1 Strategy.single [97] ⟨twoFiles, []⟩ 0 _ [] rfl
    (by decide) hb (by decide)
  exact ⟨w', h1, hb, by decide +kernel⟩

end Ribzip2
