import Verif.Proofs.Position
import Verif.Proofs.RoundTrip
import Verif.Props.Decode
import Verif.Props.Format
/- Property theorems about the position of the reader after `decode_stream`: C64. -/
namespace Ribzip2
open Spec

/-- The model used here is the one of the other properties: same writes, same outcome. -/
theorem decodeStreamRest_is_decodeStream (r : Reader) (w : Writer) :
    decodeStream r w = ((decodeStreamRest r w).1,
      match (decodeStreamRest r w).2 with
      | Res.ok _ => Res.ok ()
      | Res.err => Res.err
      | Res.panic => Res.panic
      | Res.div => Res.div) := by
  rw [decodeStreamRest_proj]
  rcases (decodeStreamRest r w).2 with _ | _ | _ | _ <;> rfl

/-- **C64**, first half. Whatever the input and the writer: if `decode_stream(&mut reader, writer)` returns
Ok, the bytes it has taken from the reader are exactly those that hold the stream up to the end of the
footer magic (fewer than eight further bits), and all other bytes are still there. So it never takes
bytes behind the stream, whatever the sizes in which the reader delivers. -/
theorem C64_takes_nothing_behind_the_footer_magic (r rest : Reader) (w w' : Writer)
    (h : decodeStreamRest r w = (w', Res.ok rest)) :
    ∃ level blocks unused taken, unused.length < 8 ∧ delivered r.events = taken ++ delivered rest.events ∧
      bytesBits taken = streamHeader level ++ blockFrames blocks ++ footerMagic ++ unused ∧
      (w = Writer.empty → w'.out = contents blocks) := by
  obtain ⟨level, blocks, unused, h1, h2, h3⟩ := decodeStreamRest_bits r rest w w' h
  obtain ⟨taken, t1, t2⟩ := split_delivered h2
  exact ⟨level, blocks, unused, taken, h1, t1, t2, fun e => by subst e; simpa [Writer.empty] using h3 rfl⟩

/-- C64 is not vacuous: `sampleA` and three more bytes, delivered in pieces; of the 37 bytes of the stream
33 are taken. -/
example : decodeStreamRest ⟨[REvent.data (sampleA.take 20), REvent.intr, REvent.data (sampleA.drop 20 ++ [1]),
      REvent.data [2, 3]], false⟩ Writer.empty
    = (⟨[97], []⟩, Res.ok ⟨[REvent.data (sampleA.drop 33 ++ [1]), REvent.data [2, 3]], false⟩) := by
  decide +kernel

/-- The property C64 as a proposition: after Ok on a valid stream the reader stands at its end. -/
def ReaderIsBehindTheStream : Prop :=
  ∀ (data bytes more : List UInt8) (r rest : Reader) (w : Writer), ValidStream data bytes →
    delivered r.events = bytes ++ more → decodeStreamRest r Writer.empty = (w, Res.ok rest) →
    delivered rest.events = more

/-- What the code does instead, for streams of any encoder that it can decode (as in C34): exactly the last
four bytes of the stream stay unread. -/
theorem C64_four_bytes_stay_unread (level : Nat) (blocks : List (List UInt8 × List Bool))
    (bytes more : List UInt8) (h : StreamOf level blocks bytes)
    (hb : ∀ b ∈ blocks, ∃ p : BlockParts, p.Valid (100000 * level) b.1 ∧ b.2 = p.body ∧
      50 * p.sel.length < p.syms.length + 51 ∧ countHazard p.rle = false)
    (r : Reader) (hr : delivered r.events = bytes ++ more) :
    ∃ rest, decodeStreamRest r Writer.empty = (⟨contents blocks, []⟩, Res.ok rest) ∧
      delivered rest.events = bytes.drop (bytes.length - 4) ++ more := by
  obtain ⟨h1, h2, hp⟩ := h
  have := decodeStreamRest_good (UInt8.ofNat (0x30 + level)) blocks
    (fun b hmem rest => pBlock_valid (100000 * level) (by omega) b (hb b hmem) rest) bytes more _ hp r hr []
  simpa [Writer.empty] using this

/-- The same for the streams `encode_stream` writes. -/
theorem C64_four_bytes_stay_unread_own (dist : Distance) (d : List UInt8) (t : Nat) (ht : 1 ≤ t)
    (h : ∀ b ∈ blocksOf d, TransformSafe (rle1Encode b) ∧ noCountCollision (runs b) = true)
    (more : List UInt8) :
    ∃ bytes, encodeBytes dist d t Strategy.single = Res.ok bytes ∧
      ∀ r : Reader, delivered r.events = bytes ++ more →
        ∃ rest, decodeStreamRest r Writer.empty = (⟨d, []⟩, Res.ok rest) ∧
          delivered rest.events = bytes.drop (bytes.length - 4) ++ more := by
  obtain ⟨blocks, bytes, e1, e2, e3, e4⟩ := encodeBytes_single dist d t ht
  refine ⟨bytes, e1, fun r hr => ?_⟩
  have hc : contents blocks = d := by rw [contents, List.flatMap_def, e2, blocksOf_flatten]
  have := decodeStreamRest_good 0x39 blocks (fun b hb rest => pBlock_written_ok 2 b (e3 b hb) (h b.1 (by
    rw [← e2]; exact List.mem_map.2 ⟨b, hb, rfl⟩)) rest) bytes more _ e4 r hr []
  simpa [Writer.empty, hc] using this

example : ∃ bytes, encodeBytes euclid banana 2 Strategy.single = Res.ok bytes ∧
    ∀ r : Reader, delivered r.events = bytes ++ [1, 2] →
      ∃ rest, decodeStreamRest r Writer.empty = (⟨banana, []⟩, Res.ok rest) ∧
        delivered rest.events = bytes.drop (bytes.length - 4) ++ [1, 2] :=
  C64_four_bytes_stay_unread_own euclid banana 2 (by decide) banana_good [1, 2]

/-- The stream of an empty file. -/
theorem emptyStream_valid :
    ValidStream [] [0x42, 0x5a, 0x68, 0x39, 0x17, 0x72, 0x45, 0x38, 0x50, 0x90, 0, 0, 0, 0] :=
  ⟨9, [], ⟨by omega, by omega, 0, by omega, by decide +kernel, by decide +kernel⟩, rfl, by simp⟩

/-- **C64 is false of the code**: behind the stream of an empty file four bytes are left over. -/
theorem C64_refuted : ¬ ReaderIsBehindTheStream := by
  intro h
  have := h [] _ [] (Reader.ofBytes [0x42, 0x5a, 0x68, 0x39, 0x17, 0x72, 0x45, 0x38, 0x50, 0x90, 0, 0, 0, 0])
    ⟨[REvent.data [0, 0, 0, 0]], false⟩ Writer.empty emptyStream_valid (by decide +kernel) (by decide +kernel)
  revert this
  decide +kernel

/-- A consequence: reading a file of several streams by calling `decode_stream` again and again on one
reader does not work either. The second call fails at once and writes nothing, whatever follows, unless
the last four bytes of the first stream happen to be `BZh?`. -/
theorem C64_second_call_fails (level : Nat) (blocks : List (List UInt8 × List Bool))
    (bytes more : List UInt8) (h : StreamOf level blocks bytes)
    (hb : ∀ b ∈ blocks, ∃ p : BlockParts, p.Valid (100000 * level) b.1 ∧ b.2 = p.body ∧
      50 * p.sel.length < p.syms.length + 51 ∧ countHazard p.rle = false)
    (hmagic : (bytes.drop (bytes.length - 4)).take 3 ≠ [0x42, 0x5a, 0x68])
    (r : Reader) (hr : delivered r.events = bytes ++ more) :
    ∃ rest, decodeStreamRest r Writer.empty = (⟨contents blocks, []⟩, Res.ok rest) ∧
      ∀ w, decodeStream rest w = (w, Res.err) := by
  obtain ⟨rest, h1, h2⟩ := C64_four_bytes_stay_unread level blocks bytes more h hb r hr
  refine ⟨rest, h1, fun w => C40_wrong_magic_rejected rest w ?_⟩
  rintro ⟨l, rs, e⟩
  apply hmagic
  have hl : 4 ≤ bytes.length := by
    obtain ⟨-, -, k, -, e, -⟩ := h
    have := congrArg List.length e
    simp at this
    omega
  have h3 : (bytes.drop (bytes.length - 4)).length = 4 := by simp; omega
  rw [h2] at e
  have := congrArg (List.take 3) e
  rw [List.take_append_of_le_length (by omega)] at this
  simpa using this

/-- Both theorems are not vacuous: the stream of `a` followed by that of `b`. -/
example : decodeStreamRest (Reader.ofBytes (sampleA ++ sampleB)) Writer.empty
      = (⟨[97], []⟩, Res.ok (Reader.ofBytes (sampleA.drop 33 ++ sampleB))) ∧
    decodeStream (Reader.ofBytes (sampleA.drop 33 ++ sampleB)) Writer.empty = (Writer.empty, Res.err) := by
  decide +kernel

end Ribzip2
