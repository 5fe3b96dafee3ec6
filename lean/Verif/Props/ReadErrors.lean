import Verif.Proofs.StreamLoss
import Verif.Proofs.WriterFollow
import Verif.Spec.Format
/- Property C05, what exactly a read error costs. -/
namespace Ribzip2
open Spec

/-- **C05**, the extent of the loss, for every reader, strategy and number of threads: if `encode_stream` ends
normally, the content of its output (the blocks in order, each being what the block encoder makes of its
content) is everything that was delivered up to some point, except that each error may have cost up to
719999 bytes that were delivered directly before it; and if the reader reports end of file only when it has
nothing left, that point is the end. Missing: that an error is reported at all, or costs nothing, which is
false (`C05_refuted`, `C05_refuted_everything_lost`). -/
theorem C05_loss_per_error_partial (fuel : Nat) (dist : Distance) (es : List REvent) (w' : Writer)
    (t : Nat) (strategy : Strategy)
    (h : encodeStreamFuel fuel dist ⟨es, false⟩ Writer.empty t strategy = (w', Res.ok ())) :
    ∃ blocks : List (List UInt8 × List Bool), ∃ seen unseen : List (Option UInt8),
      happenings es = seen ++ unseen ∧ KeepsAllBut 719999 seen (contents blocks) ∧
      ((∀ e ∈ es, e ≠ REvent.data []) → unseen = []) ∧
      (∀ b ∈ blocks, generateBlockData dist strategy (crc32 b.1) (rle1Encode b.1)
        = Res.ok (blockFrame b.1 b.2)) ∧
      PaddedTo8 (streamHeader 0x39 ++ blockFrames blocks ++ footerMagic
        ++ natToBits 32 (streamCrc blocks).toNat) (bytesBits w'.out) := by
  obtain ⟨pre, rest, bs, h1, -, h3, h4, h5⟩ := encodeStreamFuel_loss fuel dist _ _ w' t strategy h
  obtain ⟨outs, o1, o2⟩ := encodeBlocks_good dist strategy bs w' h1
  obtain ⟨blocks, b1, b2, b3, b4⟩ := streamBits_frames dist strategy bs outs o1
  have hc : contents blocks = bs.flatten := by rw [contents, List.flatMap_def, b1]
  refine ⟨blocks, pre, rest, h3, hc ▸ h4, h5, b4, ?_⟩
  rw [streamBits, footer_eq, fileHeader_eq, ← b2, ← b3, ← List.append_assoc] at o2
  exact o2

/-- What `KeepsAllBut` means for the amounts: with `k` errors at most `719999 * k` bytes are missing. -/
theorem C05_loss_amount (seen : List (Option UInt8)) (content : List UInt8)
    (h : KeepsAllBut 719999 seen content) :
    (seen.filterMap id).length ≤ content.length + 719999 * seen.count none ∧
    (none ∉ seen → content = seen.filterMap id) := by
  refine ⟨h.length, fun hn => ?_⟩
  induction h with
  | done => rfl
  | keep b _ ih => simpa using ih (fun hx => hn (by simp [hx]))
  | error => exact absurd (by simp) hn

/-- Every input of fewer than 720000 bytes is lost completely by one transient error at its end, however
its bytes were split over the reads: `encode_stream` then ends normally, having written, bit for bit, what
it writes for the empty input. More generally the call goes on as if it began behind the error. For every
writer, strategy and number of threads. -/
theorem C05_refuted_everything_lost (dist : Distance) (es rest : List REvent) (w : Writer) (t : Nat)
    (ht : 1 ≤ t) (strategy : Strategy) (hes : Steady es) (hl : (scriptBytes es).length < 720000)
    (hrest : Steady rest) :
    encodeStream dist ⟨es ++ REvent.fail :: rest, false⟩ w t strategy
      = encodeStream dist (Reader.ofBytes (scriptBytes rest)) w t strategy := by
  have hn : NoEof rest := by
    intro e he
    rcases hrest e he with rfl | ⟨bs, hne, rfl⟩
    · simp
    · simpa using hne
  rw [encodeStream_steady_fail dist es w t ht strategy hes (by omega) rest hn,
    encodeStream_steady _ _ _ _ _ hrest ht, encodeStream_ofBytes _ _ _ _ _ ht]

/-- The hypotheses are met by a reader that delivers "hi", fails once, and delivers "ho". -/
example : Steady [REvent.data [104, 105]] ∧ (scriptBytes [REvent.data [104, 105]]).length < 720000 ∧
    Steady [REvent.data [104, 111]] ∧
    happenings [REvent.data [104, 105], REvent.fail, REvent.data [104, 111]]
      = [some 104, some 105, none, some 104, some 111] ∧
    KeepsAllBut 719999 (happenings [REvent.data [104, 105], REvent.fail, REvent.data [104, 111]]) [104, 111] := by
  refine ⟨?_, by decide, ?_, rfl, ?_⟩
  · intro e he; simp at he; exact Or.inr ⟨_, by simp, he⟩
  · intro e he; simp at he; exact Or.inr ⟨_, by simp, he⟩
  · exact KeepsAllBut.error [104, 105] (by decide) (KeepsAllBut.keep _ (KeepsAllBut.keep _ KeepsAllBut.done))

/-- And `encode_stream` ends normally for it. -/
example : ∃ w, encodeStream (fun _ _ => 0) ⟨[REvent.data [104, 105], REvent.fail, REvent.data [104, 111]], false⟩
    Writer.empty 2 Strategy.single = (w, Res.ok ()) :=
  ⟨(encodeStream (fun _ _ => 0) ⟨[REvent.data [104, 105], REvent.fail, REvent.data [104, 111]], false⟩
    Writer.empty 2 Strategy.single).1, by decide +kernel⟩

end Ribzip2
