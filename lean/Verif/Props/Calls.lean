import Verif.Proofs.Calls
import Verif.Props.Format
import Verif.Props.Position
/- Property C89: decoding keeps pace with its input. -/
namespace Ribzip2
open Spec

/-- The model with the calls is the one of the other properties: same writer, same outcome. -/
theorem C89_calls_of_decode_stream (r : Reader) (w : Writer) :
    (decodeStreamCalls decodeBlockData r w).2 = decodeStream r w ∧
    (decodeStreamCalls Release.decodeBlockData r w).2 = Release.decodeStream r w := by
  simp only [decodeStreamCalls, decodeStream, Release.decodeStream]
  rcases readFileHeader (BitReader.fromReader r) with br | _ | _ | _
  · exact ⟨decodeLoopCalls_debug _ _ _, decodeLoopCalls_release _ _ _⟩
  all_goals exact ⟨rfl, rfl⟩

/-- What was offered to the writer by the call with number `i`, and all calls before it, are the blocks of the input so far,
and the bytes that were taken from the reader by then end with the last bit of the block: fewer than eight bits behind it. -/
def NoReadAhead (calls : List WriteCall) (input : List UInt8) : Prop :=
  ∀ i call, calls[i]? = some call →
    ∃ (level : UInt8) (blocks : List (List UInt8 × List Bool)) (unused : List Bool) (taken : List UInt8),
      blocks.map (·.1) = (calls.take (i + 1)).map (·.data) ∧
      unused.length < 8 ∧ input = taken ++ delivered call.unread ∧
      bytesBits taken = streamHeader level ++ blockFrames blocks ++ unused

/-- **C89**: for every input, every way in which the reader delivers it and every writer, whatever the outcome: when a block is
written, nothing behind the byte with its last bit was asked for. -/
theorem C89_no_read_ahead (r : Reader) (w : Writer) :
    NoReadAhead (decodeStreamCalls decodeBlockData r w).1 (delivered r.events) :=
  fun i call h => decodeStreamCalls_bits _ readsBlocks_debug r w i call h

/-- **C89** for release builds. -/
theorem C89_no_read_ahead_release (r : Reader) (w : Writer) :
    NoReadAhead (decodeStreamCalls Release.decodeBlockData r w).1 (delivered r.events) :=
  fun i call h => decodeStreamCalls_bits _ readsBlocks_release r w i call h

/-- `C89_keeps_pace` for any reader of blocks that reads valid blocks. -/
theorem keeps_pace (block : BitReader → Res (List UInt8 × BitReader)) (P : List Bit → Res (List UInt8 × List Bit))
    (habs : ∀ br, absR (block br) = P br.bits) (hkeeps : Keeps block) (level : UInt8) (blocks : List (List UInt8 × List Bool)) (later : List Bool)
    (r : Reader) (hr : bytesBits (delivered r.events) = streamHeader level ++ blockFrames blocks ++ later)
    (hgood : ∀ b ∈ blocks, ∀ rest, P (natToBits 32 (Spec.crc32 b.1).toNat ++ b.2 ++ rest) = Res.ok (b.1, rest)) (i : Nat) (b : List UInt8 × List Bool)
    (hi : blocks[i]? = some b) :
    ∃ call, (decodeStreamCalls block r Writer.empty).1[i]? = some call ∧ call.data = b.1 ∧
      ∃ taken unused, delivered r.events = taken ++ delivered call.unread ∧ unused.length < 8 ∧
        bytesBits taken = streamHeader level ++ blockFrames (blocks.take (i + 1)) ++ unused := by
  have hh := pHeader_eq (BitReader.fromReader r)
  rw [BitReader.fromReader_bits, hr, List.append_assoc, pHeader_append] at hh
  simp only [decodeStreamCalls]
  rcases hx : readFileHeader (BitReader.fromReader r) with br | _ | _ | _ <;> simp [hx] at hh
  dsimp only
  obtain ⟨call, k1, k2, unused, k3, k4⟩ := decodeLoopCalls_good block P habs hkeeps blocks hgood later br.fuel (by
    have h1 := br.bits_lt_fuel
    have h2 := blockFrames_length blocks
    have h3 := congrArg List.length hh
    simp only [List.length_append] at h3
    omega) br [] hh.symm i b hi
  refine ⟨call, k1, k2, ?_⟩
  obtain ⟨taken, t1, t2⟩ := split_delivered (x := delivered r.events)
    (p := streamHeader level ++ blockFrames (blocks.take (i + 1)) ++ unused) (z := delivered call.unread) (by
    rw [hr, List.append_assoc, hh, k4]; simp)
  exact ⟨taken, unused, t1, k3, t2⟩

/-- **C89**: if the input begins with valid blocks (as in C34), each is written by one call, in this order, before any byte
behind the one with its last bit is asked for; whatever comes afterwards, or if nothing comes any more. -/
theorem C89_keeps_pace (level : UInt8) (blocks : List (List UInt8 × List Bool)) (later : List Bool)
    (r : Reader) (hr : bytesBits (delivered r.events) = streamHeader level ++ blockFrames blocks ++ later)
    (hv : ∀ b ∈ blocks, ∃ p : BlockParts, p.Valid 900000 b.1 ∧ b.2 = p.body ∧
      50 * p.sel.length < p.syms.length + 51 ∧ countHazard p.rle = false) (i : Nat) (b : List UInt8 × List Bool)
    (hi : blocks[i]? = some b) :
    ∃ call, (decodeStreamCalls decodeBlockData r Writer.empty).1[i]? = some call ∧ call.data = b.1 ∧
      ∃ taken unused, delivered r.events = taken ++ delivered call.unread ∧ unused.length < 8 ∧
        bytesBits taken = streamHeader level ++ blockFrames (blocks.take (i + 1)) ++ unused :=
  keeps_pace _ _ absR_decodeBlockData keeps_block level blocks later r hr
    (fun b hb => pBlock_valid 900000 (by omega) b (hv b hb)) i b hi

/-- **C89** for release builds: if the input begins with valid blocks (as in C34), each is written by one call, in this order, before any byte
behind the one with its last bit is asked for; whatever comes afterwards, or if nothing comes any more. -/
theorem C89_keeps_pace_release (level : UInt8) (blocks : List (List UInt8 × List Bool)) (later : List Bool)
    (r : Reader) (hr : bytesBits (delivered r.events) = streamHeader level ++ blockFrames blocks ++ later)
    (hv : ∀ b ∈ blocks, ∃ p : BlockParts, p.Valid 900000 b.1 ∧ b.2 = p.body ∧
      50 * p.sel.length < p.syms.length + 51 ∧ countHazard p.rle = false) (i : Nat) (b : List UInt8 × List Bool)
    (hi : blocks[i]? = some b) :
    ∃ call, (decodeStreamCalls Release.decodeBlockData r Writer.empty).1[i]? = some call ∧ call.data = b.1 ∧
      ∃ taken unused, delivered r.events = taken ++ delivered call.unread ∧ unused.length < 8 ∧
        bytesBits taken = streamHeader level ++ blockFrames (blocks.take (i + 1)) ++ unused :=
  keeps_pace _ _ Release.absR_decodeBlockData Release.keeps_block level blocks later r hr
    (fun b hb rest => by
      have e := pBlock_valid 900000 (by omega) b (hv b hb) rest
      rcases Release.agree_block (natToBits 32 (Spec.crc32 b.1).toNat ++ b.2 ++ rest) with h | h
      · rw [e] at h; simp at h
      · rw [h, e]) i b hi

/-- The hypotheses are met by the stream of "ab", whose block is followed by the end of the stream. -/
example : bytesBits (delivered (Reader.ofBytes [66, 90, 104, 57, 49, 65, 89, 38, 83, 89, 233, 147, 253, 205, 0, 0, 0, 1, 0,
      48, 0, 32, 0, 33, 0, 130, 177, 119, 36, 83, 133, 9, 14, 153, 63, 220, 208]).events)
      = streamHeader 0x39 ++ blockFrames [([97, 98], (abParts [0]).body)]
        ++ (footerMagic ++ natToBits 32 (crc32 [97, 98]).toNat ++ List.replicate 4 false) ∧
    (abParts [0]).Valid 900000 [97, 98] ∧ 50 * (abParts [0]).sel.length < (abParts [0]).syms.length + 51 ∧
    countHazard (abParts [0]).rle = false :=
  ⟨by decide +kernel, abParts_valid 1 (by omega) (by omega), by decide, by decide⟩

/-- Two blocks, "a" and "a", and then nothing any more: both are written. When the first one is written, the second one was
not yet asked for: 22 of the 49 bytes are unread. -/
example : ((decodeStreamCalls decodeBlockData (Reader.ofBytes [66, 90, 104, 57, 49, 65, 89, 38, 83, 89, 25, 147, 155, 107, 0,
      0, 0, 1, 0, 32, 0, 32, 0, 32, 160, 40, 102, 40, 43, 36, 202, 107, 35, 50, 115, 109, 96, 0, 0, 0, 32, 4, 0, 4, 0, 4, 20,
      5, 12]) Writer.empty).1.map fun c => (c.data, (delivered c.unread).length)) = [([97], 22), ([97], 0)] := by
  decide +kernel

end Ribzip2
