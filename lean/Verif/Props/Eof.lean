import Verif.Proofs.StreamTrace
import Verif.Proofs.WriterFollow
import Verif.Spec.Format
/- Properties C65, C66: which of the bytes a reader delivers are compressed, for every reader. -/
namespace Ribzip2
open Spec

/-! ### C65 -/

/-- The property C65 as a proposition: what counts is what the reader delivers before its first end of
file, for every reader that never fails. -/
def InputEndsAtFirstEof : Prop :=
  ∀ (dist : Distance) (es : List REvent) (t : Nat), 1 ≤ t → REvent.fail ∉ es →
    encodeStream dist ⟨es, false⟩ Writer.empty t Strategy.single
      = encodeStream dist (Reader.ofBytes (delivered es)) Writer.empty t Strategy.single

/-- **C65 is false of the code**: a reader (a terminal, say, or a file that grows) delivers `a`, then end of
file, then `b`; both bytes are compressed. -/
theorem C65_refuted : ¬ InputEndsAtFirstEof := by
  intro h
  have h1 := h (fun _ _ => 0) [REvent.data [97], REvent.data [], REvent.data [98]] 1 (by omega) (by simp)
  have h2 := congrArg (fun x => x.1.out) h1
  revert h2
  decide +kernel

theorem encodeStream_single_dist (dist dist' : Distance) (r : Reader) (w : Writer) (t : Nat) :
    encodeStream dist r w t Strategy.single = encodeStream dist' r w t Strategy.single := by
  have h : generateBlockData dist Strategy.single = generateBlockData dist' Strategy.single := rfl
  unfold encodeStream encodeStreamFuel
  rw [h]

/-- Worse, the number of threads decides how much of the input is compressed: the reader delivers `a`, end
of file twice, and `b`. One thread stops behind the `a`, two threads compress the `b` too. -/
theorem C65_refuted_depends_on_threads : ∃ (es : List REvent) (w₁ w₂ : Writer), REvent.fail ∉ es ∧
    (∀ dist, encodeStream dist ⟨es, false⟩ Writer.empty 1 Strategy.single = (w₁, Res.ok ())) ∧
    (∀ dist, encodeStream dist (Reader.ofBytes [97]) Writer.empty 1 Strategy.single = (w₁, Res.ok ())) ∧
    (∀ dist, encodeStream dist ⟨es, false⟩ Writer.empty 2 Strategy.single = (w₂, Res.ok ())) ∧ w₁ ≠ w₂ := by
  refine ⟨[REvent.data [97], REvent.data [], REvent.data [], REvent.data [98]],
    (encodeStream (fun _ _ => 0) (Reader.ofBytes [97]) Writer.empty 1 Strategy.single).1,
    (encodeStream (fun _ _ => 0) ⟨[REvent.data [97], REvent.data [], REvent.data [], REvent.data [98]], false⟩
      Writer.empty 2 Strategy.single).1, by simp, ?_, ?_, ?_, by decide +kernel⟩
  all_goals
    intro dist
    rw [encodeStream_single_dist dist (fun _ _ => 0)]
    decide +kernel

/-- **C65**, the part that holds for every reader that never fails, any thread count and strategy: the
blocks of the output hold a beginning of all the bytes the reader ever delivers, and it includes all bytes
before the first end of file. Missing: that it ends there, which is false (`C65_refuted`). For readers
whose first end of file is final both bounds coincide. -/
theorem C65_at_least_to_the_first_eof_partial (fuel : Nat) (dist : Distance) (es : List REvent) (w' : Writer)
    (t : Nat) (strategy : Strategy) (hes : REvent.fail ∉ es)
    (h : encodeStreamFuel fuel dist ⟨es, false⟩ Writer.empty t strategy = (w', Res.ok ())) :
    ∃ blocks : List (List UInt8 × List Bool),
      delivered es <+: contents blocks ∧ contents blocks <+: scriptBytes es ∧
      (∀ b ∈ blocks, generateBlockData dist strategy (crc32 b.1) (rle1Encode b.1)
        = Res.ok (blockFrame b.1 b.2)) ∧
      PaddedTo8 (streamHeader 0x39 ++ blockFrames blocks ++ footerMagic
        ++ natToBits 32 (streamCrc blocks).toNat) (bytesBits w'.out) := by
  obtain ⟨bs, h1, -, -, h4⟩ := encodeStreamFuel_trace fuel dist _ _ w' t strategy h
  obtain ⟨h5, h6⟩ := h4 rfl hes
  obtain ⟨outs, o1, o2⟩ := encodeBlocks_good dist strategy bs w' h1
  obtain ⟨blocks, b1, b2, b3, b4⟩ := streamBits_frames dist strategy bs outs o1
  have hc : contents blocks = bs.flatten := by rw [contents, List.flatMap_def, b1]
  refine ⟨blocks, hc ▸ h6, hc ▸ h5, b4, ?_⟩
  rw [streamBits, footer_eq, fileHeader_eq, ← b2, ← b3, ← List.append_assoc] at o2
  exact o2

/-- The hypotheses are met by the reader of `C65_refuted`. -/
example : ∃ w, encodeStream (fun _ _ => 0) ⟨[REvent.data [97], REvent.data [], REvent.data [98]], false⟩
    Writer.empty 1 Strategy.single = (w, Res.ok ()) ∧
    delivered [REvent.data [97], REvent.data [], REvent.data [98]] = [97] ∧
    scriptBytes [REvent.data [97], REvent.data [], REvent.data [98]] = [97, 98] :=
  ⟨(encodeStream (fun _ _ => 0) ⟨[REvent.data [97], REvent.data [], REvent.data [98]], false⟩
    Writer.empty 1 Strategy.single).1, by decide +kernel, by decide +kernel, by decide +kernel⟩

/-! ### C66 -/

/-- **C66.** Whatever the reader does — errors, ends of file followed by more data, any read sizes —, if
`encode_stream` ends normally then the content of its output (the blocks' contents in order, each block
being what the block encoder makes of it) consists of bytes the reader delivered, in the order delivered,
each used at most once: nothing is invented, repeated or moved. -/
theorem C66_nothing_is_invented (fuel : Nat) (dist : Distance) (r : Reader) (w' : Writer)
    (t : Nat) (strategy : Strategy)
    (h : encodeStreamFuel fuel dist r Writer.empty t strategy = (w', Res.ok ())) :
    ∃ blocks : List (List UInt8 × List Bool),
      (contents blocks).Sublist (scriptBytes r.events) ∧ (∀ b ∈ blocks, b.1 ≠ []) ∧
      (∀ b ∈ blocks, generateBlockData dist strategy (crc32 b.1) (rle1Encode b.1)
        = Res.ok (blockFrame b.1 b.2)) ∧
      PaddedTo8 (streamHeader 0x39 ++ blockFrames blocks ++ footerMagic
        ++ natToBits 32 (streamCrc blocks).toNat) (bytesBits w'.out) := by
  obtain ⟨bs, h1, h2, h3, -⟩ := encodeStreamFuel_trace fuel dist _ _ w' t strategy h
  obtain ⟨outs, o1, o2⟩ := encodeBlocks_good dist strategy bs w' h1
  obtain ⟨blocks, b1, b2, b3, b4⟩ := streamBits_frames dist strategy bs outs o1
  have hc : contents blocks = bs.flatten := by rw [contents, List.flatMap_def, b1]
  refine ⟨blocks, hc ▸ h3, ?_, b4, ?_⟩
  · intro b hb
    exact (h2 b.1 (by rw [← b1]; exact List.mem_map.2 ⟨b, hb, rfl⟩)).1
  · rw [streamBits, footer_eq, fileHeader_eq, ← b2, ← b3, ← List.append_assoc] at o2
    exact o2

/-- The hypothesis is met by a reader with an error between two pieces; the first is lost. -/
example : ∃ w, encodeStream (fun _ _ => 0) ⟨[REvent.data [97], REvent.fail, REvent.data [98]], false⟩
    Writer.empty 1 Strategy.single = (w, Res.ok ()) ∧
    w = (encodeStream (fun _ _ => 0) (Reader.ofBytes [98]) Writer.empty 1 Strategy.single).1 :=
  ⟨(encodeStream (fun _ _ => 0) ⟨[REvent.data [97], REvent.fail, REvent.data [98]], false⟩
    Writer.empty 1 Strategy.single).1, by decide +kernel, by decide +kernel⟩

end Ribzip2
