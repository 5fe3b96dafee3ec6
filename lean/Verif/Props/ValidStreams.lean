import Verif.Props.RoundTrip
import Verif.Props.Truncate
import Verif.Props.Release
/- Property C79: a valid stream is decoded or refused; it neither makes the decoder panic nor is it misread. -/
namespace Ribzip2
open Spec

/-- What the decoder makes of one valid block: the run-length decoded data if its checksum is right, and an error
otherwise. -/
theorem pBlock_outcome (limit : Nat) (hl : limit ≤ 900000) (p : BlockParts) (data : List UInt8)
    (hv : p.Valid limit data) (hs : 50 * p.sel.length < p.syms.length + 51) (crc : BitVec 32) (rest : List Bit) :
    pBlock (natToBits 32 crc.toNat ++ p.body ++ rest) =
      if Spec.crc32 (inverseRle p.rle) = crc then Res.ok (inverseRle p.rle, rest) else Res.err := by
  have hz := hv.size
  rw [pBlock_body p (hv.readable hs), finishBlock_valid p hv.used hv.symbols hv.mtf hv.transform (by omega),
    crc32_eq_spec]
  split <;> rfl

/-- The checksum of what `inverse_rle` makes of the block is the stored one. -/
def Spec.BlockParts.crcFits (p : BlockParts) : Bool :=
  decide (Spec.crc32 (inverseRle p.rle) = Spec.crc32 (rle1Decode p.rle))

theorem pBlocks_outcome (limit : Nat) (hl : limit ≤ 900000) (parts : List BlockParts)
    (hv : ∀ p ∈ parts, p.Valid limit (rle1Decode p.rle) ∧ 50 * p.sel.length < p.syms.length + 51)
    (tail : List Bit) (fuel : Nat) (hf : parts.length < fuel) :
    pBlocks fuel (blockFrames (parts.map fun p => (rle1Decode p.rle, p.body)) ++ footerMagic ++ tail) =
      ((parts.takeWhile BlockParts.crcFits).map fun p => inverseRle p.rle,
        if ∀ p ∈ parts, Spec.crc32 (inverseRle p.rle) = Spec.crc32 (rle1Decode p.rle) then Res.ok () else Res.err) := by
  induction parts generalizing fuel with
  | nil =>
    match fuel, hf with
    | fuel + 1, _ => simp [blockFrames, pBlocks, pWhatNext_footer]
  | cons p parts ih =>
    match fuel, hf with
    | fuel + 1, hf =>
      obtain ⟨p1, p2⟩ := hv p (by simp)
      have e : blockFrames ((p :: parts).map fun p => (rle1Decode p.rle, p.body)) ++ footerMagic ++ tail
          = blockMagic ++ (natToBits 32 (Spec.crc32 (rle1Decode p.rle)).toNat ++ p.body
            ++ (blockFrames (parts.map fun p => (rle1Decode p.rle, p.body)) ++ footerMagic ++ tail)) := by
        simp [blockFrames, blockFrame]
      rw [e]
      simp only [pBlocks, pWhatNext_block]
      rw [pBlock_outcome limit hl p _ p1 p2]
      have hcr : p.crcFits = decide (Spec.crc32 (inverseRle p.rle) = Spec.crc32 (rle1Decode p.rle)) := rfl
      by_cases hc : Spec.crc32 (inverseRle p.rle) = Spec.crc32 (rle1Decode p.rle)
      · rw [if_pos hc]
        simp only [ih (fun x hx => hv x (by simp [hx])) fuel (by simpa using hf)]
        rw [List.takeWhile_cons_of_pos (by rw [hcr]; exact decide_eq_true hc)]
        simp [hc]
      · rw [if_neg hc, List.takeWhile_cons_of_neg (by rw [hcr]; simpa using hc)]
        simp [hc]

/-- The exact outcome on a valid stream whose blocks have one selector per group: the blocks are written one after
the other, each as `inverse_rle` gives it, up to the first whose checksum then differs from the stored one; the result
is Ok if there is none, and an error otherwise. -/
theorem C79_outcome_on_valid_partial (level : Nat) (parts : List BlockParts) (bytes more : List UInt8)
    (h : StreamOf level (parts.map fun p => (rle1Decode p.rle, p.body)) bytes)
    (hv : ∀ p ∈ parts, p.Valid (100000 * level) (rle1Decode p.rle))
    (hs : ∀ p ∈ parts, 50 * p.sel.length < p.syms.length + 51) :
    outputOf decodeStream (bytes ++ more)
      = (parts.takeWhile fun p => Spec.crc32 (inverseRle p.rle) = Spec.crc32 (rle1Decode p.rle)).flatMap
          (fun p => inverseRle p.rle) ∧
    resultOf decodeStream (bytes ++ more)
      = if ∀ p ∈ parts, Spec.crc32 (inverseRle p.rle) = Spec.crc32 (rle1Decode p.rle) then Res.ok () else Res.err := by
  obtain ⟨h1, h2, k, -, e4, -⟩ := h
  have hp := pBlocks_outcome (100000 * level) (by omega) parts (fun p hp => ⟨hv p hp, hs p hp⟩)
    (natToBits 32 (streamCrc (parts.map fun p => (rle1Decode p.rle, p.body))).toNat ++ (List.replicate k false ++ bytesBits more))
    ((blockFrames (parts.map fun p => (rle1Decode p.rle, p.body)) ++ footerMagic
      ++ (natToBits 32 (streamCrc (parts.map fun p => (rle1Decode p.rle, p.body))).toNat ++ (List.replicate k false
        ++ bytesBits more))).length + 1) (by
    have := blockFrames_length (parts.map fun p => (rle1Decode p.rle, p.body))
    simp only [List.length_append, List.length_map] at *
    omega)
  have hst : pStream (bytesBits (bytes ++ more)) =
      ((parts.takeWhile BlockParts.crcFits).map fun p => inverseRle p.rle,
        if ∀ p ∈ parts, Spec.crc32 (inverseRle p.rle) = Spec.crc32 (rle1Decode p.rle) then Res.ok () else Res.err) := by
    rw [← hp, bytesBits_append, e4]
    simp only [List.append_assoc]
    rw [pStream, pHeader_append]
  constructor
  · simp only [outputOf, Writer.empty, decodeStream_reliable, List.nil_append]
    simp only [Reader.ofBytes, delivered_data, hst, List.flatMap_def]
    rfl
  · simp only [resultOf, Writer.empty, decodeStream_reliable]
    simp only [Reader.ofBytes, delivered_data, hst]

/-- The same in a release build. -/
theorem C79_outcome_on_valid_release_partial (level : Nat) (parts : List BlockParts) (bytes more : List UInt8)
    (h : StreamOf level (parts.map fun p => (rle1Decode p.rle, p.body)) bytes)
    (hv : ∀ p ∈ parts, p.Valid (100000 * level) (rle1Decode p.rle))
    (hs : ∀ p ∈ parts, 50 * p.sel.length < p.syms.length + 51) :
    outputOf Release.decodeStream (bytes ++ more)
      = (parts.takeWhile fun p => Spec.crc32 (inverseRle p.rle) = Spec.crc32 (rle1Decode p.rle)).flatMap
          (fun p => inverseRle p.rle) ∧
    resultOf Release.decodeStream (bytes ++ more)
      = if ∀ p ∈ parts, Spec.crc32 (inverseRle p.rle) = Spec.crc32 (rle1Decode p.rle) then Res.ok () else Res.err := by
  have := C79_outcome_on_valid_partial level parts bytes more h hv hs
  have hp : resultOf decodeStream (bytes ++ more) ≠ Res.panic := by
    rw [this.2]; split <;> simp
  have e := C62_release_agrees (Reader.ofBytes (bytes ++ more)) Writer.empty hp
  rw [outputOf, resultOf, e]
  exact this

/-- The claim of C79 for a decoder: for every valid stream, whatever follows it, the decoder writes, for some number
of blocks from the start of the stream, data with the checksums of these blocks; its result is Ok if these are all
the blocks, and an error otherwise. (So it does not panic, and if it reports success nothing was misread, unless two
different blocks have the same checksum.) -/
def DecodedOrRefused (decode : Reader → Writer → Writer × Res Unit) (blocks : List (List UInt8 × List Bool))
    (bytes more : List UInt8) : Prop :=
  ∃ outs : List (List UInt8), outputOf decode (bytes ++ more) = outs.flatten ∧
    outs.map Spec.crc32 = (blocks.take outs.length).map (fun b => Spec.crc32 b.1) ∧
    ((outs.length = blocks.length ∧ resultOf decode (bytes ++ more) = Res.ok ()) ∨
      (outs.length < blocks.length ∧ resultOf decode (bytes ++ more) = Res.err))

theorem parts_of_blocks (limit : Nat) (blocks : List (List UInt8 × List Bool))
    (hb : ∀ b ∈ blocks, ∃ p : BlockParts, p.Valid limit b.1 ∧ b.2 = p.body ∧
      50 * p.sel.length < p.syms.length + 51) :
    ∃ parts : List BlockParts, blocks = parts.map (fun p => (rle1Decode p.rle, p.body)) ∧
      ∀ p ∈ parts, p.Valid limit (rle1Decode p.rle) ∧ 50 * p.sel.length < p.syms.length + 51 := by
  induction blocks with
  | nil => exact ⟨[], rfl, by simp⟩
  | cons b blocks ih =>
    obtain ⟨parts, h1, h2⟩ := ih fun x hx => hb x (by simp [hx])
    obtain ⟨p, p1, p2, p3⟩ := hb b (by simp)
    have hc := p1.content
    refine ⟨p :: parts, by rw [List.map_cons, ← h1, hc, ← p2], fun q hq => ?_⟩
    rcases List.mem_cons.1 hq with rfl | hq
    · exact ⟨by rw [hc]; exact p1, p3⟩
    · exact h2 q hq

theorem takeWhile_all {α : Type} (q : α → Bool) (l : List α) :
    (∀ x ∈ l.takeWhile q, q x = true) ∧ ((∀ x ∈ l, q x = true) → l.takeWhile q = l) := by
  induction l with
  | nil => simp
  | cons a l ih =>
    by_cases h : q a = true
    · rw [List.takeWhile_cons_of_pos h]
      refine ⟨fun x hx => ?_, fun hx => by rw [ih.2 fun x hm => hx x (by simp [hm])]⟩
      rcases List.mem_cons.1 hx with rfl | hx
      · exact h
      · exact ih.1 x hx
    · rw [List.takeWhile_cons_of_neg h]
      exact ⟨by simp, fun hx => absurd (hx a (by simp)) h⟩

theorem decodedOrRefused_of (parts : List BlockParts) (decode : Reader → Writer → Writer × Res Unit)
    (bytes more : List UInt8)
    (h : outputOf decode (bytes ++ more)
      = (parts.takeWhile fun p => Spec.crc32 (inverseRle p.rle) = Spec.crc32 (rle1Decode p.rle)).flatMap
          (fun p => inverseRle p.rle) ∧
      resultOf decode (bytes ++ more)
      = if ∀ p ∈ parts, Spec.crc32 (inverseRle p.rle) = Spec.crc32 (rle1Decode p.rle) then Res.ok () else Res.err) :
    DecodedOrRefused decode (parts.map fun p => (rle1Decode p.rle, p.body)) bytes more := by
  obtain ⟨h1, h2⟩ := h
  generalize hq : (parts.takeWhile fun p => Spec.crc32 (inverseRle p.rle) = Spec.crc32 (rle1Decode p.rle)) = good at h1
  have hpre : good <+: parts := hq ▸ List.takeWhile_prefix _
  have htake : parts.take good.length = good := (List.prefix_iff_eq_take.1 hpre).symm
  have hmem : ∀ p ∈ good, Spec.crc32 (inverseRle p.rle) = Spec.crc32 (rle1Decode p.rle) := by
    intro p hp
    rw [← hq] at hp
    simpa using (takeWhile_all _ _).1 p hp
  refine ⟨good.map fun p => inverseRle p.rle, by rw [h1, List.flatMap_def], ?_, ?_⟩
  · rw [← List.map_take, List.length_map, htake, List.map_map, List.map_map]
    exact List.map_congr_left hmem
  · simp only [List.length_map]
    by_cases hall : ∀ p ∈ parts, Spec.crc32 (inverseRle p.rle) = Spec.crc32 (rle1Decode p.rle)
    · left
      rw [if_pos hall] at h2
      refine ⟨?_, h2⟩
      rw [← hq, (takeWhile_all _ _).2 (fun p hp => by simpa using hall p hp)]
    · right
      rw [if_neg hall] at h2
      refine ⟨?_, h2⟩
      rcases Nat.lt_or_ge good.length parts.length with hl | hl
      · exact hl
      · exfalso
        rw [List.take_of_length_le hl] at htake
        exact hall (htake ▸ hmem)

/-- **C79**, partial: for every valid stream, of any level and any encoder, whose blocks have one selector for each
group of 50 symbols, and whatever follows it. Missing: valid streams with more selectors than groups, for which it is
false (`C79_refuted`). -/
theorem C79_decoded_or_refused_partial (level : Nat) (blocks : List (List UInt8 × List Bool)) (bytes more : List UInt8)
    (h : StreamOf level blocks bytes)
    (hb : ∀ b ∈ blocks, ∃ p : BlockParts, p.Valid (100000 * level) b.1 ∧ b.2 = p.body ∧
      50 * p.sel.length < p.syms.length + 51) :
    DecodedOrRefused decodeStream blocks bytes more ∧ DecodedOrRefused Release.decodeStream blocks bytes more := by
  obtain ⟨parts, rfl, hp⟩ := parts_of_blocks _ blocks hb
  exact ⟨decodedOrRefused_of parts _ bytes more
      (C79_outcome_on_valid_partial level parts bytes more h (fun p q => (hp p q).1) fun p q => (hp p q).2),
    decodedOrRefused_of parts _ bytes more
      (C79_outcome_on_valid_release_partial level parts bytes more h (fun p q => (hp p q).1) fun p q => (hp p q).2)⟩

/-- **C79 is false** in general: a valid stream for "ab" with 20 selectors where one is needed makes the decoder
panic, in both kinds of build. -/
theorem C79_refuted : ∃ data bytes, ValidStream data bytes ∧ resultOf decodeStream bytes = Res.panic ∧
    resultOf Release.decodeStream bytes = Res.panic := by
  refine ⟨[97, 98], [66, 90, 104, 57, 49, 65, 89, 38, 83, 89, 233, 147, 253, 205, 0, 0, 0, 1, 0, 48, 0, 32, 2, 128, 0, 0,
    32, 16, 86, 46, 228, 138, 112, 161, 33, 211, 39, 251, 154],
    ⟨9, [([97, 98], (abParts (List.replicate 20 0)).body)],
      ⟨by omega, by omega, 1, by omega, by decide +kernel, by decide +kernel⟩, rfl, ?_⟩, by decide +kernel, by decide +kernel⟩
  intro b hb
  simp only [List.mem_singleton] at hb
  subst hb
  exact ⟨_, abParts_valid 20 (by omega) (by omega), rfl⟩

/-- The hypotheses of the positive theorems are met by streams that decode (the stream of "ab", see C34) and by
streams that are refused: the stream for 1,1,1,1,0,0,0,5 of `C34_refuted_repeat_count` is valid, its only block has
one selector per group, and `inverse_rle` gives something else. -/
example : Spec.crc32 (inverseRle [1, 1, 1, 1, 0, 0, 0, 0, 5]) ≠ Spec.crc32 (rle1Decode [1, 1, 1, 1, 0, 0, 0, 0, 5]) ∧
    (∃ bytes, StreamOf 9 [([97, 98], (abParts [0]).body)] bytes ∧
      (abParts [0]).Valid (100000 * 9) (rle1Decode (abParts [0]).rle)) := by
  refine ⟨by decide +kernel, [66, 90, 104, 57, 49, 65, 89, 38, 83, 89, 233, 147, 253, 205, 0, 0, 0, 1, 0, 48, 0, 32, 0, 33,
    0, 130, 177, 119, 36, 83, 133, 9, 14, 153, 63, 220, 208], ⟨by omega, by omega, 4, by omega, by decide +kernel,
    by decide +kernel⟩, abParts_valid 1 (by omega) (by omega)⟩

/-- Instance of C79_outcome_on_valid_partial and C79_outcome_on_valid_release_partial: the stream of "ab", with two more bytes
behind it. -/
example : outputOf decodeStream ([66, 90, 104, 57, 49, 65, 89, 38, 83, 89, 233, 147, 253, 205, 0, 0, 0, 1, 0, 48, 0, 32, 0, 33,
      0, 130, 177, 119, 36, 83, 133, 9, 14, 153, 63, 220, 208] ++ [1, 2]) = [97, 98] ∧
    resultOf Release.decodeStream ([66, 90, 104, 57, 49, 65, 89, 38, 83, 89, 233, 147, 253, 205, 0, 0, 0, 1, 0, 48, 0, 32, 0, 33,
      0, 130, 177, 119, 36, 83, 133, 9, 14, 153, 63, 220, 208] ++ [1, 2]) = Res.ok () := by
  have hs : StreamOf 9 ([abParts [0]].map fun p => (rle1Decode p.rle, p.body)) [66, 90, 104, 57, 49, 65, 89, 38, 83, 89, 233, 147,
      253, 205, 0, 0, 0, 1, 0, 48, 0, 32, 0, 33, 0, 130, 177, 119, 36, 83, 133, 9, 14, 153, 63, 220, 208] :=
    ⟨by omega, by omega, 4, by omega, by decide +kernel, by decide +kernel⟩
  have hv : ∀ p ∈ [abParts [0]], p.Valid (100000 * 9) (rle1Decode p.rle) := by
    intro p hp
    rw [List.mem_singleton.1 hp]
    exact abParts_valid 1 (by omega) (by omega)
  have hl : ∀ p ∈ [abParts [0]], 50 * p.sel.length < p.syms.length + 51 := by
    intro p hp
    rw [List.mem_singleton.1 hp]
    decide
  refine ⟨?_, ?_⟩
  · rw [(C79_outcome_on_valid_partial 9 _ _ [1, 2] hs hv hl).1]; decide +kernel
  · rw [(C79_outcome_on_valid_release_partial 9 _ _ [1, 2] hs hv hl).2]; decide +kernel

end Ribzip2
