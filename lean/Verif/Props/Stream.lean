import Verif.Proofs.WriterFollow
import Verif.Proofs.StreamErrors
/- Properties C04, C05, C06, C07, C08, C37: the stream encoder, for every reader and writer. -/
namespace Ribzip2
open Spec

/-! ### C04 -/

/-- **C04.** What `encode_stream` does to the writer, and how it ends, depends only on the bytes the
reader delivers: not on how they are split over the reads nor on `Interrupted` results in between. For
every writer, strategy and number of threads. -/
theorem C04_independent_of_read_sizes (dist : Distance) (es₁ es₂ : List REvent) (w : Writer)
    (t : Nat) (ht : 1 ≤ t) (strategy : Strategy) (h₁ : Steady es₁) (h₂ : Steady es₂)
    (heq : scriptBytes es₁ = scriptBytes es₂) :
    encodeStream dist ⟨es₁, false⟩ w t strategy = encodeStream dist ⟨es₂, false⟩ w t strategy := by
  rw [encodeStream_steady _ _ _ _ _ h₁ ht, encodeStream_steady _ _ _ _ _ h₂ ht, heq]

/-- In particular the result is the one for a reader that holds all the bytes at once. -/
theorem C04_same_as_from_memory (dist : Distance) (es : List REvent) (w : Writer)
    (t : Nat) (ht : 1 ≤ t) (strategy : Strategy) (h : Steady es) :
    encodeStream dist ⟨es, false⟩ w t strategy
      = encodeStream dist (Reader.ofBytes (scriptBytes es)) w t strategy := by
  rw [encodeStream_steady _ _ _ _ _ h ht, encodeStream_ofBytes _ _ _ _ _ ht]

/-- Two readers that meet the hypotheses of C04: "hello" at once, and in pieces with interruptions. -/
example : Steady [REvent.data [104, 101, 108, 108, 111]] ∧
    Steady [REvent.intr, REvent.data [104], REvent.intr, REvent.data [101, 108, 108], REvent.data [111]] ∧
    scriptBytes [REvent.data [104, 101, 108, 108, 111]] = scriptBytes [REvent.intr, REvent.data [104],
      REvent.intr, REvent.data [101, 108, 108], REvent.data [111]] := by
  refine ⟨?_, ?_, rfl⟩ <;> intro e he <;> simp at he
  · exact Or.inr ⟨_, by simp, he⟩
  · rcases he with rfl | rfl | rfl | rfl | rfl
    · exact Or.inl rfl
    · exact Or.inr ⟨_, by simp, rfl⟩
    · exact Or.inl rfl
    · exact Or.inr ⟨_, by simp, rfl⟩
    · exact Or.inr ⟨_, by simp, rfl⟩

/-! ### C05 -/

/-- **C05 is false.** The reader delivers "hi", then reports an error once, then end of file:
`encode_stream` ends normally and has written the stream of the empty input. -/
theorem C05_refuted : ∃ (r : Reader) (w : Writer), scriptBytes r.events = [104, 105] ∧
    REvent.fail ∈ r.events ∧
    (∀ dist, encodeStream dist r Writer.empty 1 Strategy.single = (w, Res.ok ())) ∧
    (∀ dist, encodeStream dist (Reader.ofBytes []) Writer.empty 1 Strategy.single = (w, Res.ok ())) := by
  refine ⟨⟨[REvent.data [104, 105], REvent.fail], false⟩,
    ⟨[0x42, 0x5a, 0x68, 0x39, 0x17, 0x72, 0x45, 0x38, 0x50, 0x90, 0, 0, 0, 0], []⟩, rfl, by simp, ?_, ?_⟩ <;>
  · intro dist
    rfl

/-- **C05**, the part that holds: if the error persists, `encode_stream` never ends normally, however
long it runs (it neither returns nor pretends to have finished). Missing: an error after which the
reader goes on or reports end of file, for which the property is false (`C05_refuted`). -/
theorem C05_persistent_error_partial (dist : Distance) (es : List REvent)
    (hn : ∀ e ∈ es, e ≠ REvent.data []) (w w' : Writer) (t : Nat) (strategy : Strategy) (fuel : Nat) :
    encodeStreamFuel fuel dist ⟨es, true⟩ w t strategy ≠ (w', Res.ok ()) :=
  encodeStreamFuel_noEof fuel dist es hn w w' t strategy

/-- **C05**, the other part that holds: without errors nothing is omitted, see
`C08_blocks_are_the_input`; in particular the result is that of the whole input. -/
theorem C05_no_error_partial (dist : Distance) (es : List REvent) (w : Writer)
    (t : Nat) (ht : 1 ≤ t) (strategy : Strategy) (h : Steady es) :
    encodeStream dist ⟨es, false⟩ w t strategy
      = encodeStream dist (Reader.ofBytes (scriptBytes es)) w t strategy :=
  C04_same_as_from_memory dist es w t ht strategy h

example : ∀ e ∈ [REvent.data [104, 105]], e ≠ REvent.data [] := by decide

/-! ### C06 -/

/-- **C06.** Whatever the reader does (errors included) and however the call was scheduled: if
`encode_stream` ends normally on a reliable writer, the bytes written are `BZh9`, then blocks, each
beginning with the block magic and the CRC of its content (which is not empty, and the block is what the
block encoder makes of it), then the footer magic and the combined CRC
of all blocks in order, then fewer than 8 zero bits. -/
theorem C06_container_layout (fuel : Nat) (dist : Distance) (r : Reader) (w' : Writer) (t : Nat)
    (strategy : Strategy) (h : encodeStreamFuel fuel dist r Writer.empty t strategy = (w', Res.ok ())) :
    ∃ blocks : List (List UInt8 × List Bool),
      (∀ b ∈ blocks, b.1 ≠ [] ∧ generateBlockData dist strategy (crc32 b.1) (rle1Encode b.1)
        = Res.ok (blockFrame b.1 b.2)) ∧
      PaddedTo8 (streamHeader 0x39 ++ blockFrames blocks ++ footerMagic
        ++ natToBits 32 (streamCrc blocks).toNat) (bytesBits w'.out) := by
  obtain ⟨bs, h1, h2⟩ := encodeStreamFuel_blocks fuel dist r _ w' t strategy h
  obtain ⟨outs, o1, o2⟩ := encodeBlocks_good dist strategy bs w' h1
  obtain ⟨blocks, b1, b2, b3, b4⟩ := streamBits_frames dist strategy bs outs o1
  refine ⟨blocks, fun b hb => ⟨(h2 b.1 (by rw [← b1]; exact List.mem_map.2 ⟨b, hb, rfl⟩)).1, b4 b hb⟩, ?_⟩
  rw [streamBits, footer_eq, fileHeader_eq, ← b2, ← b3, ← List.append_assoc] at o2
  exact o2

/-! ### C08 -/

/-- **C08.** For every reader that delivers its data without error, the blocks in the output are
non-empty, their contents in the order written are exactly the input, each is what the block encoder
makes of the run-length encoding of its content, and the output is the header, those blocks in that
order and the footer. -/
theorem C08_blocks_are_the_input (dist : Distance) (es : List REvent) (hes : Steady es) (w' : Writer)
    (t : Nat) (ht : 1 ≤ t) (strategy : Strategy)
    (h : encodeStream dist ⟨es, false⟩ Writer.empty t strategy = (w', Res.ok ())) :
    ∃ blocks : List (List UInt8 × List Bool),
      contents blocks = scriptBytes es ∧ (∀ b ∈ blocks, b.1 ≠ []) ∧
      (∀ b ∈ blocks, generateBlockData dist strategy (crc32 b.1) (rle1Encode b.1)
        = Res.ok (blockFrame b.1 b.2)) ∧
      PaddedTo8 (streamHeader 0x39 ++ blockFrames blocks ++ footerMagic
        ++ natToBits 32 (streamCrc blocks).toNat) (bytesBits w'.out) := by
  rw [encodeStream_steady _ _ _ _ _ hes ht] at h
  obtain ⟨outs, o1, o2⟩ := encodeBlocks_good dist strategy _ w' h
  obtain ⟨blocks, b1, b2, b3, b4⟩ := streamBits_frames dist strategy _ outs o1
  refine ⟨blocks, ?_, ?_, b4, ?_⟩
  · rw [contents, List.flatMap_def, b1, blocksOf_flatten]
  · intro b hb
    exact blocksOf_ne_nil _ b.1 (by rw [← b1]; exact List.mem_map.2 ⟨b, hb, rfl⟩)
  · rw [streamBits, footer_eq, fileHeader_eq, ← b2, ← b3, ← List.append_assoc] at o2
    exact o2

/-- The hypothesis of C06 and C08 is met: "hi" delivered in two reads, encoded with one thread. -/
example : ∃ w, encodeStream (fun _ _ => 0) ⟨[REvent.data [104], REvent.data [105]], false⟩ Writer.empty 1
    Strategy.single = (w, Res.ok ()) ∧ w.out.length = 39 := by
  exact ⟨(encodeStream (fun _ _ => 0) ⟨[REvent.data [104], REvent.data [105]], false⟩ Writer.empty 1
    Strategy.single).1, by decide +kernel, by decide +kernel⟩

/-! ### C07 -/

/-- **C07 is false.** From these 720008 bytes (eight zeros, then runs of four ones and four zeros) the
block loop makes one block of 900005 run-length encoded bytes, beyond the 900000 declared in the
header. -/
theorem C07_refuted : ∃ (d : List UInt8) (work : Work) (es : List REvent),
    nextBlock false [REvent.data d] = Res.ok (some work, es, false) ∧
    work.rleTotal = rle1Encode d ∧ work.rleTotal.length = 900005 := by
  have hne : longBlock 89999 ≠ [] := by
    intro h
    have := longBlock_length 89999
    rw [h] at this
    simp at this
  obtain ⟨es, h1, -, -⟩ := nextBlock_steady [REvent.data (longBlock 89999)]
    (by intro e he; simp at he; exact Or.inr ⟨_, hne, he⟩)
  have hs : scriptBytes [REvent.data (longBlock 89999)] = longBlock 89999 := by simp [scriptBytes]
  have hl : (longBlock 89999).length = 720008 := by rw [longBlock_length]
  rw [hs, cut_longBlock, if_neg hne, List.take_of_length_le (by simp only [hl]; omega)] at h1
  exact ⟨_, _, _, h1, rfl, by simp only; rw [longBlock_size]⟩

/-- **C07**, what holds for every reader, thread count and strategy: no block exceeds 900005 run-length
encoded bytes, and this is the best bound (`C07_refuted`). Missing: the 900000 of the format, which is
false. -/
theorem C07_block_size_bound_partial (fuel : Nat) (dist : Distance) (r : Reader) (w' : Writer) (t : Nat)
    (strategy : Strategy) (h : encodeStreamFuel fuel dist r Writer.empty t strategy = (w', Res.ok ())) :
    ∃ blocks : List (List UInt8 × List Bool),
      (∀ b ∈ blocks, b.1 ≠ [] ∧ (rle1Encode b.1).length ≤ 900005 ∧
        generateBlockData dist strategy (crc32 b.1) (rle1Encode b.1) = Res.ok (blockFrame b.1 b.2)) ∧
      PaddedTo8 (streamHeader 0x39 ++ blockFrames blocks ++ footerMagic
        ++ natToBits 32 (streamCrc blocks).toNat) (bytesBits w'.out) := by
  obtain ⟨bs, h1, h2⟩ := encodeStreamFuel_blocks fuel dist r _ w' t strategy h
  obtain ⟨outs, o1, o2⟩ := encodeBlocks_good dist strategy bs w' h1
  obtain ⟨blocks, b1, b2, b3, b4⟩ := streamBits_frames dist strategy bs outs o1
  refine ⟨blocks, ?_, ?_⟩
  · intro b hb
    have := h2 b.1 (by rw [← b1]; exact List.mem_map.2 ⟨b, hb, rfl⟩)
    exact ⟨this.1, this.2, b4 b hb⟩
  · rw [streamBits, footer_eq, fileHeader_eq, ← b2, ← b3, ← List.append_assoc] at o2
    exact o2

/-! ### C37 -/

/-- **C37 is false.** A writer that once answers `Ok(0)` (nothing accepted) loses a byte, and
`encode_stream` ends normally. -/
theorem C37_refuted : ∃ (w w' w₀ : Writer),
    (∀ dist, encodeStream dist (Reader.ofBytes []) w 1 Strategy.single = (w', Res.ok ())) ∧
    (∀ dist, encodeStream dist (Reader.ofBytes []) Writer.empty 1 Strategy.single = (w₀, Res.ok ())) ∧
    w.out = [] ∧ w'.out ≠ w₀.out :=
  ⟨⟨[], [WEvent.accept 1, WEvent.accept 0]⟩,
    ⟨[0x42, 0x68, 0x39, 0x17, 0x72, 0x45, 0x38, 0x50, 0x90, 0, 0, 0, 0], []⟩,
    ⟨[0x42, 0x5a, 0x68, 0x39, 0x17, 0x72, 0x45, 0x38, 0x50, 0x90, 0, 0, 0, 0], []⟩,
    fun _ => rfl, fun _ => rfl, rfl, by decide⟩

/-- **C37**, the part that holds: for every reader and every writer that never answers `Ok(0)` (it may
fail at any point, and accept as little as one byte at a time), if `encode_stream` ends normally the
writer has received, behind what it already held, exactly the bytes a reliable writer receives.
Missing: writers that answer `Ok(0)` (`C37_refuted`). -/
theorem C37_output_complete_partial (fuel : Nat) (dist : Distance) (r : Reader) (w w' : Writer) (t : Nat)
    (strategy : Strategy) (hw : ∀ e ∈ w.script, e ≠ WEvent.accept 0)
    (h : encodeStreamFuel fuel dist r w t strategy = (w', Res.ok ())) :
    ∃ w₀, encodeStreamFuel fuel dist r Writer.empty t strategy = (w₀, Res.ok ()) ∧
      w'.out = w.out ++ w₀.out :=
  encodeStreamFuel_tracks fuel dist r w w' t strategy hw h

/-- A writer that takes one byte, then up to seven, then fails later than the stream is long. -/
example : ∃ w', encodeStream (fun _ _ => 0) (Reader.ofBytes []) ⟨[9], [WEvent.accept 1, WEvent.accept 7]⟩ 1
      Strategy.single = (w', Res.ok ()) ∧ w'.out =
    [9, 0x42, 0x5a, 0x68, 0x39, 0x17, 0x72, 0x45, 0x38, 0x50, 0x90, 0, 0, 0, 0] := ⟨_, rfl, rfl⟩

/-- **C37**, what happens on a write error: a writer that accepts `m` one-byte writes and then fails
receives exactly the first `m` bytes of the stream a reliable writer would receive, and `encode_stream`
panics (it has no error result), if the stream is longer than that; otherwise nothing of the failure is
noticed and the stream is complete. For every reader, strategy and number of threads. -/
theorem C37_write_error (fuel : Nat) (dist : Distance) (r : Reader) (out : List UInt8)
    (acc : List Nat) (rest : List WEvent) (t : Nat) (strategy : Strategy) (w₀ : Writer) (res : Res Unit)
    (hacc : ∀ k ∈ acc, 1 ≤ k) (hrest : ∀ e ∈ rest, e ≠ WEvent.accept 0)
    (h : encodeStreamFuel fuel dist r Writer.empty t strategy = (w₀, res)) :
    ∃ w', (encodeStreamFuel fuel dist r ⟨out, acc.map WEvent.accept ++ WEvent.fail :: rest⟩ t strategy
        = (w', if acc.length < w₀.out.length then Res.panic else res)) ∧
      w'.out = out ++ w₀.out.take acc.length := by
  have hs : ∀ e ∈ acc.map WEvent.accept ++ WEvent.fail :: rest, e ≠ WEvent.accept 0 := by
    intro e he
    simp only [List.mem_append, List.mem_map, List.mem_cons] at he
    rcases he with ⟨k, hk, rfl⟩ | rfl | he
    · have := hacc k hk
      intro hc
      simp only [WEvent.accept.injEq] at hc
      omega
    · simp
    · exact hrest e he
  obtain ⟨bytes, res', h0, h1⟩ := encodeStreamFuel_follows fuel dist r
    ⟨out, acc.map WEvent.accept ++ WEvent.fail :: rest⟩ t strategy hs
  rw [h] at h0
  simp only [Prod.mk.injEq] at h0
  obtain ⟨rfl, rfl⟩ := h0
  have hfeed := feed_accepts acc rest bytes
  simp only at h1 ⊢
  rcases h1 with ⟨s', k1, k2⟩ | ⟨pre, s', k1, k2⟩
  · rw [k1] at hfeed
    by_cases hl : acc.length < bytes.length
    · simp [hl] at hfeed
    · refine ⟨_, by rw [k2, if_neg hl], ?_⟩
      rw [List.take_of_length_le (by omega)]
  · rw [k1] at hfeed
    by_cases hl : acc.length < bytes.length
    · simp only [hl, decide_true, Bool.not_true, Prod.mk.injEq] at hfeed
      exact ⟨_, by rw [k2, if_pos hl], by rw [hfeed.1]⟩
    · simp [hl] at hfeed

/-- The empty input has a stream of 14 bytes: a failure after 3 writes leaves `BZh`. -/
example : ∃ w', encodeStream (fun _ _ => 0) (Reader.ofBytes []) ⟨[], [WEvent.accept 1, WEvent.accept 7,
      WEvent.accept 2, WEvent.fail]⟩ 1 Strategy.single = (w', Res.panic) ∧ w'.out = [0x42, 0x5a, 0x68] :=
  ⟨_, rfl, rfl⟩

end Ribzip2
