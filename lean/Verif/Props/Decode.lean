import Verif.Proofs.DecoderProps
/- Property theorems about `decode_stream`: C13, C14, C15, C16, C17, C18, C19, C36, C40. -/
namespace Ribzip2
open Spec

/-! ### C13 -/

/-- **C13.** Whatever `decode_stream` does (success, error or panic), what it has written is the
content of blocks that follow each other in the input right after a `BZh?` header, each preceded by
the block magic and by the CRC *of that content*; and if it returns Ok, the end-of-stream magic
follows the last of them.  So no byte of a block whose stored CRC differs is ever written. -/
theorem C13_written_blocks_have_the_stored_crc (r : Reader) :
    ∃ blocks : List (List UInt8 × List Bool),
      (decodeStream r Writer.empty).1.out = contents blocks ∧
      ((decodeStream r Writer.empty).2 = Res.ok () →
        ∃ level tail, inputBits r = streamHeader level ++ blockFrames blocks ++ footerMagic ++ tail) ∧
      (blocks ≠ [] → ∃ level tail, inputBits r = streamHeader level ++ blockFrames blocks ++ tail) := by
  simp only [Writer.empty, decodeStream_reliable, inputBits]
  generalize bytesBits (delivered r.events) = bs
  unfold pStream
  rcases h : pHeader bs with b | _ | _ | _
  · obtain ⟨level, hl⟩ := pHeader_inv h
    obtain ⟨blocks, tail, g1, g2, g3⟩ := pBlocks_frames (b.length + 1) b
    refine ⟨blocks, by simp [g1, contents, List.flatMap_def], ?_, ?_⟩
    · intro hok
      obtain ⟨t, ht⟩ := g3 hok
      exact ⟨level, t, by rw [hl, g2, ht]; simp⟩
    · intro _
      exact ⟨level, tail, by rw [hl, g2]; simp⟩
  all_goals exact ⟨[], by simp [contents], by simp, by simp⟩

/-- **C13**, second half: if a block decodes, then the same block with any other value in its CRC
field makes `decode_block` return Err without writing anything. -/
theorem C13_wrong_crc_is_rejected (br br' : BitReader) (w w₁ : Writer) (br₁ : BitReader)
    (c c' : BitVec 32) (rest : List Bool) (hne : c ≠ c')
    (hbits : br.bits = natToBits 32 c.toNat ++ rest)
    (hbits' : br'.bits = natToBits 32 c'.toNat ++ rest)
    (hok : decodeBlock br w = (w₁, Res.ok br₁)) :
    decodeBlock br' w = (w, Res.err) := by
  have h1 := absR_decodeBlockData br
  have h2 := absR_decodeBlockData br'
  have hd : ∃ d rest', decodeBlockData br = Res.ok (d, rest') := by
    rcases hx : decodeBlockData br with ⟨d, b⟩ | _ | _ | _
    · exact ⟨d, b, rfl⟩
    all_goals simp [decodeBlock, hx] at hok
  obtain ⟨d, b, hd⟩ := hd
  rw [hd, hbits] at h1
  rw [hbits'] at h2
  have key : pBlock (natToBits 32 c'.toNat ++ rest) = Res.err := by
    have h1 := h1.symm
    simp only [pBlock, takeBits_append (natToBits_length 32 _), Res.unwrap_ok, Res.ok_bind,
      absR_ok] at h1 ⊢
    have hc : ∀ x : BitVec 32, BitVec.ofNat 32 (convertToNumber (natToBits 32 x.toNat)) = x := by
      intro x
      rw [convertToNumber_eq, bitsToNat_natToBits, Nat.mod_eq_of_lt x.isLt]; simp
    rw [hc] at h1 ⊢
    rcases h2 : takeBits 1 rest with ⟨x2, b2⟩ | _ | _ | _ <;> simp [h2] at h1
    simp only [Res.ok_bind]
    rcases h3 : takeBits 24 b2 with ⟨x3, b3⟩ | _ | _ | _ <;> simp [h3] at h1
    simp only [Res.ok_bind, Res.unwrap_ok]
    rcases h4 : pSymbolTable b3 with ⟨x4, b4⟩ | _ | _ | _ <;> simp [h4] at h1
    simp only [Res.ok_bind, Res.unwrap_ok]
    rcases h5 : takeBits 3 b4 with ⟨x5, b5⟩ | _ | _ | _ <;> simp [h5] at h1
    simp only [Res.ok_bind, Res.unwrap_ok]
    rcases h6 : takeBits 15 b5 with ⟨x6, b6⟩ | _ | _ | _ <;> simp [h6] at h1
    simp only [Res.ok_bind, Res.unwrap_ok]
    rcases h7 : pUnary (convertToNumber x6) b6 with ⟨x7, b7⟩ | _ | _ | _ <;> simp [h7] at h1
    simp only [Res.ok_bind, Res.unwrap_ok]
    rcases h8 : inverseMtf x7 ((List.range (convertToNumber x5)).map UInt8.ofNat) with x8 | _ | _ | _ <;>
      simp [h8] at h1
    simp only [Res.ok_bind]
    rcases h9 : pTrees (x4.length + 2) (convertToNumber x5) b7 with ⟨x9, b9⟩ | _ | _ | _ <;>
      simp [h9] at h1
    simp only [Res.ok_bind]
    rcases h10 : buildTables x9 with x10 | _ | _ | _ <;> simp [h10] at h1
    simp only [Res.ok_bind]
    rcases h11 : pGroups x10 x8 b9 with ⟨x11, b11⟩ | _ | _ | _ <;> simp [h11] at h1
    simp only [Res.ok_bind]
    simp only [finishBlock] at h1 ⊢
    rcases g1 : decodeZle x11 with y1 | _ | _ | _ <;> simp [g1] at h1
    simp only [Res.ok_bind]
    rcases g2 : inverseMtf y1 x4 with y2 | _ | _ | _ <;> simp [g2] at h1
    simp only [Res.ok_bind]
    rcases g3 : inverseBwt y2 (convertToNumber x3) with y3 | _ | _ | _ <;> simp [g3] at h1
    simp only [Res.ok_bind]
    by_cases hcc : Ribzip2.crc32 (inverseRle y3) = c
    · rw [if_neg (by rw [hcc]; exact hne)]; rfl
    · simp [hcc] at h1
  rw [key] at h2
  simp only [decodeBlock]
  rcases hx : decodeBlockData br' with ⟨d, b⟩ | _ | _ | _ <;> simp [hx] at h2 ⊢

/-- A complete stream for the one-byte file `a` (output of `encode_stream`, strategy Single). -/
def sampleA : List UInt8 :=
  [66, 90, 104, 57, 49, 65, 89, 38, 83, 89, 25, 147, 155, 107, 0, 0, 0, 1, 0, 32, 0, 32, 0, 32,
   160, 40, 98, 238, 72, 167, 10, 18, 3, 50, 115, 109, 96]

/-- A complete stream for the one-byte file `b`. -/
def sampleB : List UInt8 :=
  [66, 90, 104, 57, 49, 65, 89, 38, 83, 89, 20, 208, 189, 178, 0, 0, 0, 1, 0, 16, 0, 32, 0, 32,
   160, 40, 98, 238, 72, 167, 10, 18, 2, 154, 23, 182, 64]

/-- C13 is not vacuous: a stream with a block is decoded, and with another CRC it is rejected. -/
example : decodeBytes sampleA = Res.ok [97] ∧ decodeBytes (sampleA.set 10 26) = Res.err := by
  decide +kernel

/-! ### C14 -/

/-- The property C14 as a proposition: Ok only if the footer carries the combined CRC. -/
def FooterIsChecked : Prop :=
  ∀ bytes d, decodeBytes bytes = Res.ok d →
    ∃ level blocks tail, d = contents blocks ∧
      bytesBits bytes = streamHeader level ++ blockFrames blocks ++ footerMagic
        ++ natToBits 32 (streamCrc blocks).toNat ++ tail

/-- **C14 is false of the code**: the stream of an empty file with the footer checksum `01020304`
(instead of 0) is accepted. -/
theorem C14_refuted : ¬ FooterIsChecked := by
  intro h
  obtain ⟨level, blocks, tail, _, h2⟩ :=
    h [0x42, 0x5a, 0x68, 0x39, 0x17, 0x72, 0x45, 0x38, 0x50, 0x90, 1, 2, 3, 4] [] (by decide +kernel)
  cases blocks with
  | nil =>
    have := congrArg (fun l => (l.drop 80).take 32) h2
    simp only [blockFrames, List.flatMap_nil, List.append_nil, streamCrc, List.map_nil] at this
    rw [List.append_assoc, List.drop_left' (by simp [streamHeader, footerMagic]),
      List.take_left' (by simp)] at this
    revert this
    decide +kernel
  | cons b bs =>
    have := congrArg (fun l => (l.drop 32).take 48) h2
    simp only [blockFrames, List.flatMap_cons, blockFrame, List.append_assoc] at this
    rw [List.drop_left' (by simp [streamHeader]), List.take_left' (by simp [blockMagic])] at this
    revert this
    decide +kernel

/-- What the code does instead: the outcome is fixed by what precedes the end of the footer magic;
the footer CRC (and everything behind it) has no influence at all. -/
theorem C14_footer_crc_is_ignored (bytes d : List UInt8) (h : decodeBytes bytes = Res.ok d) :
    ∃ pre tail, bytesBits bytes = pre ++ footerMagic ++ tail ∧
      ∀ bytes' tail', bytesBits bytes' = pre ++ footerMagic ++ tail' →
        decodeBytes bytes' = Res.ok d := by
  simp only [decodeBytes_eq] at *
  generalize bytesBits bytes = bs at *
  have hs : (pStream bs).2 = Res.ok () := by
    rcases hx : (pStream bs).2 with _ | _ | _ | _ <;> simp [hx] at h ⊢
  rw [hs, Res.ok_bind] at h
  simp only [Res.ok.injEq] at h
  -- the prefix consumed up to and including the footer magic
  have key : ∀ fuel b, (pBlocks fuel b).2 = Res.ok () → ∃ p t, b = p ++ footerMagic ++ t ∧
      ∀ t', pBlocks fuel (p ++ footerMagic ++ t') = pBlocks fuel b := by
    intro fuel
    induction fuel with
    | zero => intro b hb; simp [pBlocks] at hb
    | succ fuel ih =>
      intro b hb
      rcases hwn : pWhatNext b with ⟨t, mid⟩ | _ | _ | _
      · rcases pWhatNext_inv hwn with ⟨rfl, e⟩ | ⟨rfl, e⟩
        · rcases hbn : pBlock mid with ⟨d, rest⟩ | _ | _ | _
          · simp only [pBlocks, hwn, hbn] at hb
            obtain ⟨p, t, i1, i2⟩ := ih rest hb
            obtain ⟨u, u1, u2⟩ := Local.block _ _ _ hbn
            refine ⟨blockMagic ++ u ++ p, t, by rw [e, u1, i1]; simp, fun t' => ?_⟩
            have := i2 t'
            simp only [List.append_assoc] at this ⊢
            simp only [pBlocks, pWhatNext_block, u2, hwn, hbn, this]
          all_goals simp [pBlocks, hwn, hbn] at hb
        · exact ⟨[], mid, by simpa using e, fun t' => by
            simp [pBlocks, pWhatNext_footer, hwn]⟩
      all_goals simp [pBlocks, hwn] at hb
  unfold pStream at hs h
  rcases hh : pHeader bs with b | _ | _ | _ <;> simp only [hh] at hs h
  · obtain ⟨level, hl⟩ := pHeader_inv hh
    obtain ⟨p, t, k1, k2⟩ := key _ _ hs
    refine ⟨streamHeader level ++ p, t, by rw [hl, k1]; simp, ?_⟩
    intro bytes' tail' hb'
    have hb : pBlocks ((p ++ footerMagic ++ tail').length + 1) (p ++ footerMagic ++ tail')
        = pBlocks (b.length + 1) b := by
      rw [← k2 tail']
      -- both runs stop at the footer magic: enough fuel on either side
      by_cases hle : (p ++ footerMagic ++ tail').length ≤ b.length
      · exact pBlocks_fuel _ _ _ (by omega) (by omega)
      · have : ∀ f1 f2 x, f1 ≤ f2 → (pBlocks f1 x).2 = Res.ok () → pBlocks f2 x = pBlocks f1 x := by
          intro f1
          induction f1 with
          | zero => intro f2 x _ hx; simp [pBlocks] at hx
          | succ f1 ih =>
            intro f2 x hf hx
            cases f2 with
            | zero => omega
            | succ f2 =>
              simp only [pBlocks] at hx ⊢
              rcases hwn : pWhatNext x with ⟨t, mid⟩ | _ | _ | _ <;> simp only [hwn] at hx ⊢
              cases t
              · rfl
              · simp only at hx ⊢
                rcases hbn : pBlock mid with ⟨d, rest⟩ | _ | _ | _ <;> simp only [hbn] at hx ⊢
                rw [ih f2 rest (by omega) hx]
        exact this _ _ _ (by omega) (by rw [k2]; exact hs)
    rw [hb']
    have hp : pStream (streamHeader level ++ p ++ footerMagic ++ tail')
        = pBlocks ((p ++ footerMagic ++ tail').length + 1) (p ++ footerMagic ++ tail') := by
      unfold pStream
      rw [List.append_assoc, List.append_assoc, pHeader_append]
      simp
    rw [hp, hb, hs, Res.ok_bind, h]
  all_goals simp at hs

example : decodeBytes sampleA = Res.ok [97] := by decide +kernel

/-! ### C15, C16 -/

/-- **C15.** If `decode_stream` returns Ok on the bytes delivered before the input was cut short,
it returns Ok with the same output on the whole input. -/
theorem C15_ok_on_prefix_is_ok_on_whole (cut whole : Reader) (s : List UInt8)
    (hpre : delivered whole.events = delivered cut.events ++ s)
    (hok : (decodeStream cut Writer.empty).2 = Res.ok ()) :
    decodeStream whole Writer.empty = decodeStream cut Writer.empty := by
  simp only [Writer.empty, decodeStream_reliable] at *
  rw [hpre, bytesBits_append, (pStream_mono _ _).2 hok]

/-- C15 is not vacuous: trailing bytes behind a complete stream. -/
example : (decodeStream (Reader.ofBytes sampleA) Writer.empty).2 = Res.ok () ∧
    delivered (Reader.ofBytes (sampleA ++ [1, 2, 3])).events
      = delivered (Reader.ofBytes sampleA).events ++ [1, 2, 3] := by decide +kernel

/-- Every proper prefix of the sample is rejected (a test of what C15 leaves open). -/
example : ∀ n : Fin 33, (decodeBytes (sampleA.take n.val)).isOk = false := by decide +kernel

/-- **C16.** Whatever has been written when `decode_stream` stops on a prefix of the input is a
prefix of what it writes on the whole input. -/
theorem C16_output_on_prefix_is_prefix (cut whole : Reader) (s : List UInt8)
    (hpre : delivered whole.events = delivered cut.events ++ s) :
    (decodeStream cut Writer.empty).1.out <+: (decodeStream whole Writer.empty).1.out := by
  simp only [Writer.empty, decodeStream_reliable, List.nil_append]
  rw [hpre, bytesBits_append]
  obtain ⟨t, ht⟩ := (pStream_mono (bytesBits (delivered cut.events)) (bytesBits s)).1
  rw [← ht]
  simp

/-- C16 is not vacuous: a cut inside the footer still writes the block. -/
example : decodeStream (Reader.ofBytes (sampleA.take 28)) Writer.empty = (⟨[97], []⟩, Res.err) := by
  decide +kernel

/-! ### C17 -/

/-- **C17 is false of the code**: a stream cut inside its first block makes `decode_stream` panic
(`unwrap` on the read error). -/
theorem C17_refuted : ¬ ∀ bytes : List UInt8, decodeBytes bytes ≠ Res.panic := by
  intro h
  exact h [0x42, 0x5a, 0x68, 0x39, 0x31, 0x41, 0x59, 0x26, 0x53, 0x59] (by decide +kernel)

/-- **C17, what holds**: a panic is only possible inside a block — if `decode_stream` panics, the
input is a `BZh?` header, the blocks already written, and then another block magic.  In particular
every input that is cut or malformed in the header, between blocks or in the footer gives Ok or Err.
(Missing from the full property: malformed block bodies.) -/
theorem C17_panic_only_inside_a_block_partial (r : Reader)
    (hp : (decodeStream r Writer.empty).2 = Res.panic) :
    ∃ level blocks tail, (decodeStream r Writer.empty).1.out = contents blocks ∧
      inputBits r = streamHeader level ++ blockFrames blocks ++ blockMagic ++ tail := by
  simp only [Writer.empty, decodeStream_reliable, List.nil_append, inputBits] at *
  generalize bytesBits (delivered r.events) = bs at *
  unfold pStream at *
  rcases hh : pHeader bs with b | _ | _ | _ <;> simp only [hh] at hp ⊢
  · obtain ⟨level, hl⟩ := pHeader_inv hh
    have key : ∀ fuel b, (pBlocks fuel b).2 = Res.panic → ∃ blocks t,
        (pBlocks fuel b).1.flatten = contents blocks ∧
        b = blockFrames blocks ++ blockMagic ++ t := by
      intro fuel
      induction fuel with
      | zero => intro b hb; simp [pBlocks] at hb
      | succ fuel ih =>
        intro b hb
        rcases hwn : pWhatNext b with ⟨t, mid⟩ | _ | _ | _
        · rcases pWhatNext_inv hwn with ⟨rfl, e⟩ | ⟨rfl, e⟩
          · rcases hbn : pBlock mid with ⟨d, rest⟩ | _ | _ | _
            · simp only [pBlocks, hwn, hbn] at hb
              obtain ⟨blocks, t, i1, i2⟩ := ih rest hb
              obtain ⟨body, hbody⟩ := pBlock_crc hbn
              refine ⟨(d, body) :: blocks, t, ?_, ?_⟩
              · simp [pBlocks, hwn, hbn, contents, i1]
              · rw [e, hbody, i2]; simp [blockFrames, blockFrame]
            · simp [pBlocks, hwn, hbn] at hb
            · exact ⟨[], mid, by simp [pBlocks, hwn, hbn, contents], by simpa [blockFrames] using e⟩
            · simp [pBlocks, hwn, hbn] at hb
          · simp [pBlocks, hwn] at hb
        · simp [pBlocks, hwn] at hb
        · exact absurd hwn (pWhatNext_ne b).2
        · simp [pBlocks, hwn] at hb
    obtain ⟨blocks, t, k1, k2⟩ := key _ _ hp
    exact ⟨level, blocks, t, k1, by rw [hl, k2]; simp⟩
  · simp at hp
  · exact absurd hh (pHeader_ne bs).2
  · simp at hp

/-- Two blocks, the second cut off: the first is written, then the panic. -/
example : decodeStream (Reader.ofBytes
    [66, 90, 104, 57, 49, 65, 89, 38, 83, 89, 25, 147, 155, 107, 0, 0, 0, 1, 0, 32, 0, 32, 0, 33, 24, 70, 134, 40,
     43, 36, 202, 107, 59, 213, 183, 221, 224]) Writer.empty = (⟨[97], []⟩, Res.panic) := by
  decide +kernel

/-! ### C18 -/

/-- **C18.** `decode_stream` terminates on every finite input, whatever the reader and the writer
do: none of its loops outlives the bits of the input. -/
theorem C18_decode_terminates (r : Reader) (w : Writer) : (decodeStream r w).2 ≠ Res.div := by
  rw [decodeStream_eq]
  have := pStream_ne_div (bytesBits (delivered r.events))
  rcases writeAll w (pStream (bytesBits (delivered r.events))).1 with ⟨w', (_ | _ | _ | _)⟩ <;>
    simp [this]

/-- A reader that fails for ever and a writer that fails: still an answer. -/
example : (decodeStream ⟨[REvent.data (sampleA.take 20)], true⟩ ⟨[], [WEvent.fail]⟩).2 = Res.panic ∧
    (decodeStream ⟨[REvent.data sampleA], true⟩ ⟨[], [WEvent.fail]⟩).2 ≠ Res.ok () := by decide +kernel

/-! ### C19 -/

/-- The property C19 as a proposition. -/
def ConcatenatedStreamsDecode : Prop :=
  ∀ s₁ s₂ d₁ d₂, decodeBytes s₁ = Res.ok d₁ → decodeBytes s₂ = Res.ok d₂ →
    decodeBytes (s₁ ++ s₂) = Res.ok (d₁ ++ d₂)

/-- **C19 is false of the code**: the second of two concatenated streams is silently ignored. -/
theorem C19_refuted : ¬ ConcatenatedStreamsDecode := by
  intro h
  have h1 := h sampleA sampleB [97] [98] (by decide +kernel) (by decide +kernel)
  have h2 : decodeBytes (sampleA ++ sampleB) = Res.ok [97] := by decide +kernel
  rw [h2] at h1
  simp at h1

/-- What the code does instead: everything behind a complete stream is ignored. -/
theorem C19_trailing_data_is_ignored (s t d : List UInt8) (h : decodeBytes s = Res.ok d) :
    decodeBytes (s ++ t) = Res.ok d := by
  rw [decodeBytes_eq] at *
  have hs : (pStream (bytesBits s)).2 = Res.ok () := by
    rcases hx : (pStream (bytesBits s)).2 with _ | _ | _ | _ <;> simp [hx] at h ⊢
  rw [bytesBits_append, (pStream_mono _ _).2 hs]
  exact h

example : decodeBytes sampleA = Res.ok [97] ∧ decodeBytes (sampleA ++ [1, 2, 3]) = Res.ok [97] := by decide +kernel

/-! ### C36 -/

/-- **C36 is false of the code**: a writer that accepts fewer bytes than it is offered (allowed by
`std::io::Write`) loses data although `decode_stream` returns Ok. -/
theorem C36_refuted : ¬ ∀ (r : Reader) (w : Writer), (decodeStream r w).2 = Res.ok () →
    (decodeStream r w).1.out = w.out ++ (decodeStream r Writer.empty).1.out := by
  intro h
  have := h (Reader.ofBytes sampleA) ⟨[], [WEvent.accept 0]⟩ (by decide +kernel)
  revert this
  decide +kernel

/-- The stream of `ab`. -/
def sampleAB : List UInt8 :=
  [66, 90, 104, 57, 49, 65, 89, 38, 83, 89, 233, 147, 253, 205, 0, 0, 0, 1, 0, 48, 0, 32, 0, 33, 39, 168, 36, 245, 14,
   46, 228, 138, 112, 161, 33, 211, 39, 251, 154]

/-- **C36 is false** also for writers that accept at least one byte per call: of `ab` only `a` is written. -/
theorem C36_refuted_short_write : ∃ (r : Reader) (w : Writer), (∀ k, WEvent.accept k ∈ w.script → 1 ≤ k) ∧
    (decodeStream r w).2 = Res.ok () ∧ (decodeStream r w).1.out = [97] ∧
    (decodeStream r Writer.empty).1.out = [97, 98] :=
  ⟨Reader.ofBytes sampleAB, ⟨[], [WEvent.accept 1]⟩, by simp, by decide +kernel, by decide +kernel, by decide +kernel⟩

/-- **C36, what holds**: for every writer that never accepts fewer bytes than it is offered (each
call accepts at least the size of the whole output, or fails), an Ok result means that the writer
has received every decoded byte.  (Missing: writers with short writes.) -/
theorem C36_output_complete_partial (r : Reader) (w : Writer)
    (hfull : ∀ k, WEvent.accept k ∈ w.script → (decodeStream r Writer.empty).1.out.length ≤ k)
    (hok : (decodeStream r w).2 = Res.ok ()) :
    (decodeStream r w).1.out = w.out ++ (decodeStream r Writer.empty).1.out ∧
    (decodeStream r Writer.empty).2 = Res.ok () := by
  simp only [Writer.empty, decodeStream_reliable, List.nil_append] at *
  rw [decodeStream_eq] at *
  generalize pStream (bytesBits (delivered r.events)) = y at *
  have key : ∀ (ds : List (List UInt8)) (w : Writer),
      (∀ k, WEvent.accept k ∈ w.script → ds.flatten.length ≤ k) →
      (writeAll w ds).2 = Res.ok () → (writeAll w ds).1.out = w.out ++ ds.flatten := by
    intro ds
    induction ds with
    | nil => intro w _ _; simp [writeAll]
    | cons d ds ih =>
      intro w hf hw
      obtain ⟨out, script⟩ := w
      match script with
      | [] =>
        simp only [writeAll, Writer.write] at hw ⊢
        rw [ih _ (by simp) hw]; simp
      | WEvent.accept k :: s =>
        have hk := hf k (by simp)
        simp only [List.flatten_cons, List.length_append] at hk
        simp only [writeAll, Writer.write] at hw ⊢
        rw [ih _ (fun k' hk' => by
          have := hf k' (by simp at hk' ⊢; exact Or.inr hk')
          simp only [List.flatten_cons, List.length_append] at this; omega) hw]
        rw [List.take_of_length_le (by omega)]; simp
      | WEvent.fail :: s => simp [writeAll, Writer.write] at hw
  rcases hx : writeAll w y.1 with ⟨w', (_ | _ | _ | _)⟩ <;> simp only [hx] at hok ⊢
  · have := key y.1 w hfull (by rw [hx])
    rw [hx] at this
    exact ⟨this, hok⟩
  all_goals simp at hok

/-- C36_partial is not vacuous: a writer whose first call would accept 100 bytes. -/
example : (decodeStream (Reader.ofBytes sampleA) ⟨[5], [WEvent.accept 100]⟩) = (⟨[5, 97], []⟩, Res.ok ()) := by
  decide +kernel

/-! ### C40 -/

/-- **C40.** If the input does not begin with `B`, `Z`, `h` and one more byte, `decode_stream`
returns Err and never calls the writer. -/
theorem C40_wrong_magic_rejected (r : Reader) (w : Writer)
    (h : ¬ ∃ level rest, delivered r.events = 0x42 :: 0x5a :: 0x68 :: level :: rest) :
    decodeStream r w = (w, Res.err) := by
  rw [decodeStream_eq]
  have : pStream (bytesBits (delivered r.events)) = ([], Res.err) := by
    unfold pStream
    rcases hh : pHeader (bytesBits (delivered r.events)) with b | _ | _ | _
    · exfalso
      obtain ⟨level, hl⟩ := pHeader_inv hh
      apply h
      have h4 : 4 ≤ (delivered r.events).length := by
        have := congrArg List.length hl
        simp [streamHeader] at this
        omega
      refine ⟨level, (delivered r.events).drop 4, ?_⟩
      have e : bytesBits ((delivered r.events).take 4) = streamHeader level := by
        have hs := (List.take_append_drop 4 (delivered r.events)).symm
        rw [hs, bytesBits_append] at hl
        exact (List.append_inj hl (by simp [streamHeader]; omega)).1
      have := bytesBits_inj (b := [0x42, 0x5a, 0x68, level]) e
      conv => lhs; rw [← List.take_append_drop 4 (delivered r.events), this]
      rfl
    · rfl
    · exact absurd hh (pHeader_ne _).2
    · exact absurd hh (pHeader_ne _).1
  rw [this]; rfl

/-- C40 is not vacuous: a gzip header. -/
example : ¬ ∃ level rest, delivered (Reader.ofBytes [0x1f, 0x8b, 8, 0, 0]).events
    = 0x42 :: 0x5a :: 0x68 :: level :: rest := by
  simp [Reader.ofBytes]

end Ribzip2
