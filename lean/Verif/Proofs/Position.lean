import Verif.Model.Position
import Verif.Proofs.DecoderProps
import Verif.Proofs.BlockDecode
/- Where the reader stands after `decode_stream`. -/
namespace Ribzip2
open Spec

theorem decodeLoopRest_proj (fuel : Nat) (br : BitReader) (w : Writer) :
    decodeLoop fuel br w = ((decodeLoopRest fuel br w).1, (decodeLoopRest fuel br w).2 >>= fun _ => Res.ok ()) := by
  induction fuel generalizing br w with
  | zero => rfl
  | succ fuel ih =>
    simp only [decodeLoop, decodeLoopRest]
    rcases whatNext br with ⟨t, br1⟩ | _ | _ | _
    · cases t
      · rfl
      · simp only
        rcases decodeBlock br1 w with ⟨w', (_ | _ | _ | _)⟩
        · exact ih _ _
        all_goals rfl
    all_goals rfl

theorem decodeStreamRest_proj (r : Reader) (w : Writer) :
    decodeStream r w = ((decodeStreamRest r w).1, (decodeStreamRest r w).2 >>= fun _ => Res.ok ()) := by
  simp only [decodeStream, decodeStreamRest]
  rcases readFileHeader (BitReader.fromReader r) with br | _ | _ | _
  · simp only
    rw [decodeLoopRest_proj]
    rcases decodeLoopRest br.fuel br w with ⟨w', (_ | _ | _ | _)⟩ <;> rfl
  all_goals rfl

/-- The reader holds a byte of which at least one bit has been used. -/
def BitReader.Started (br : BitReader) : Prop := ∃ b, br.current = some b ∧ 1 ≤ br.cursor ∧ br.cursor ≤ 8

theorem BitReader.refill_lt {br br' : BitReader} {b : UInt8} (h : br.refill = Res.ok (b, br')) :
    br'.current = some b ∧ br'.cursor < 8 := by
  unfold BitReader.refill at h
  split at h
  · rename_i c hc
    split at h
    · rcases hr : readByte br.events with ⟨x, es⟩ | _ | _ | _ <;> simp [hr] at h
      obtain ⟨rfl, rfl⟩ := h; simp
    · simp at h; obtain ⟨rfl, rfl⟩ := h; exact ⟨hc, by omega⟩
  · rcases hr : readByte br.events with ⟨x, es⟩ | _ | _ | _ <;> simp [hr] at h
    obtain ⟨rfl, rfl⟩ := h; simp

theorem BitReader.readBits_started (n : Nat) (br br' : BitReader) (bits : List Bit)
    (h : br.readBits (n + 1) = Res.ok (bits, br')) : br'.Started := by
  induction n generalizing br bits with
  | zero =>
    simp only [BitReader.readBits] at h
    rcases hr : br.refill with ⟨b, br1⟩ | _ | _ | _ <;> simp [hr] at h
    obtain ⟨h1, h2⟩ := BitReader.refill_lt hr
    obtain ⟨_, rfl⟩ := h
    exact ⟨b, h1, by simp, by simp; omega⟩
  | succ n ih =>
    rw [BitReader.readBits] at h
    rcases hr : br.refill with ⟨b, br1⟩ | _ | _ | _ <;> simp only [hr, Res.ok_bind, Res.err_bind, Res.panic_bind, Res.div_bind, reduceCtorEq] at h
    rcases hr2 : BitReader.readBits { br1 with cursor := br1.cursor + 1 } (n + 1) with ⟨bs, br2⟩ | _ | _ | _ <;>
      simp [hr2] at h
    obtain ⟨_, rfl⟩ := h
    exact ih _ _ hr2

theorem BitReader.readBytes_started (n : Nat) (br br' : BitReader) (bytes : List UInt8)
    (h : br.readBytes (n + 1) = Res.ok (bytes, br')) : br'.Started := by
  induction n generalizing br bytes with
  | zero =>
    simp only [BitReader.readBytes] at h
    rcases hr : br.readBits 8 with ⟨b, br1⟩ | _ | _ | _ <;> simp [hr] at h
    obtain ⟨_, rfl⟩ := h
    exact BitReader.readBits_started 7 _ _ _ hr
  | succ n ih =>
    rw [BitReader.readBytes] at h
    rcases hr : br.readBits 8 with ⟨b, br1⟩ | _ | _ | _ <;> simp only [hr, Res.ok_bind, Res.err_bind, Res.panic_bind, Res.div_bind, reduceCtorEq] at h
    rcases hr2 : BitReader.readBytes br1 (n + 1) with ⟨bs, br2⟩ | _ | _ | _ <;>
      simp [hr2] at h
    obtain ⟨_, rfl⟩ := h
    exact ih _ _ hr2

theorem whatNext_started {br br' : BitReader} {t : BlockType} (h : whatNext br = Res.ok (t, br')) : br'.Started := by
  simp only [whatNext] at h
  rcases hr : br.readBytes 6 with ⟨b, br1⟩ | _ | _ | _ <;> simp [hr] at h
  have := BitReader.readBytes_started 5 _ _ _ hr
  split at h
  · simp at h; exact h.2 ▸ this
  · split at h <;> simp at h; exact h.2 ▸ this

theorem decodeLoopRest_bits (fuel : Nat) (br br' : BitReader) (w w' : Writer)
    (h : decodeLoopRest fuel br w = (w', Res.ok br')) :
    br'.Started ∧ ∃ blocks, br.bits = blockFrames blocks ++ footerMagic ++ br'.bits ∧
      (w.script = [] → w'.out = w.out ++ contents blocks) := by
  induction fuel generalizing br w with
  | zero => simp [decodeLoopRest] at h
  | succ fuel ih =>
    simp only [decodeLoopRest] at h
    have hw := absR_whatNext br
    rcases hn : whatNext br with ⟨t, br1⟩ | _ | _ | _ <;> simp only [hn] at h
    · rw [hn] at hw
      have hinv := pWhatNext_inv hw.symm
      cases t
      · simp at h
        obtain ⟨rfl, rfl⟩ := h
        rcases hinv with ⟨h1, -⟩ | ⟨-, e⟩
        · simp at h1
        · exact ⟨whatNext_started hn, [], by simpa [blockFrames] using e, by simp [contents]⟩
      · rcases hinv with ⟨-, e⟩ | ⟨h1, -⟩
        · simp only [decodeBlock] at h
          have hb := absR_decodeBlockData br1
          rcases hd : decodeBlockData br1 with ⟨d, br2⟩ | _ | _ | _ <;> simp only [hd] at h
          · rw [hd] at hb
            obtain ⟨body, hbody⟩ := pBlock_crc hb.symm
            rcases hwr : w.write d with ⟨w1, (_ | _ | _ | _)⟩ <;> simp only [hwr] at h
            · obtain ⟨s, blocks, g1, g2⟩ := ih _ _ h
              refine ⟨s, (d, body) :: blocks, ?_, ?_⟩
              · rw [e, hbody, g1]; simp [blockFrames, blockFrame]
              · intro hs
                simp only [Writer.write, hs] at hwr
                simp at hwr
                rw [g2 (by rw [← hwr])]
                rw [← hwr]; simp [contents]
            all_goals simp at h
          all_goals simp at h
        · simp at h1
    all_goals simp at h

theorem decodeStreamRest_bits (r rest : Reader) (w w' : Writer)
    (h : decodeStreamRest r w = (w', Res.ok rest)) :
    ∃ level blocks unused, unused.length < 8 ∧ inputBits r = streamHeader level ++ blockFrames blocks ++ footerMagic
        ++ unused ++ inputBits rest ∧
      (w.script = [] → w'.out = w.out ++ contents blocks) := by
  simp only [decodeStreamRest] at h
  have hb : (BitReader.fromReader r).bits = bytesBits (delivered r.events) := by simp
  have hh := pHeader_eq (BitReader.fromReader r)
  rcases hr : readFileHeader (BitReader.fromReader r) with br | _ | _ | _ <;> simp only [hr] at h hh
  · rw [hb] at hh
    obtain ⟨level, hl⟩ := pHeader_inv hh
    rcases hd : decodeLoopRest br.fuel br w with ⟨w1, (br' | _ | _ | _)⟩ <;> simp [hd] at h
    obtain ⟨rfl, rfl⟩ := h
    obtain ⟨⟨b, s1, s2, s3⟩, blocks, g1, g2⟩ := decodeLoopRest_bits _ _ _ _ _ hd
    refine ⟨level, blocks, (byteBits b).drop br'.cursor, by simp; omega, ?_, g2⟩
    rw [inputBits, hl, g1]
    simp [BitReader.bits, s1, inputBits]
  all_goals simp at h

theorem split_delivered {x z : List UInt8} {p : List Bool} (h : bytesBits x = p ++ bytesBits z) :
    ∃ y, x = y ++ z ∧ bytesBits y = p := by
  have hl := congrArg List.length h
  simp at hl
  have hle : z.length ≤ x.length := by omega
  have hs := (List.take_append_drop (x.length - z.length) x).symm
  have h2 := h
  rw [hs, bytesBits_append] at h2
  have := List.append_inj' h2 (by simp; omega)
  refine ⟨x.take (x.length - z.length), ?_, this.1⟩
  have hz : x.drop (x.length - z.length) = z := bytesBits_inj this.2
  rw [hz] at hs; exact hs

/-- With blocks that decode, the loop stops right behind the footer magic. -/
theorem decodeLoopRest_good (blocks : List (List UInt8 × List Bool))
    (hb : ∀ b ∈ blocks, ∀ rest, pBlock (natToBits 32 (Spec.crc32 b.1).toNat ++ b.2 ++ rest) = Res.ok (b.1, rest))
    (tail : List Bit) (fuel : Nat) (hf : blocks.length < fuel) (br : BitReader) (out : List UInt8)
    (h : br.bits = blockFrames blocks ++ footerMagic ++ tail) :
    ∃ br', decodeLoopRest fuel br ⟨out, []⟩ = (⟨out ++ contents blocks, []⟩, Res.ok br') ∧ br'.Started ∧
      br'.bits = tail := by
  induction blocks generalizing fuel br out with
  | nil =>
    obtain ⟨fuel, rfl⟩ : ∃ f, fuel = f + 1 := ⟨fuel - 1, by simp at hf; omega⟩
    have hw := absR_whatNext br
    rw [h] at hw
    simp only [blockFrames, List.flatMap_nil, List.nil_append, pWhatNext_footer] at hw
    obtain ⟨br', h1, h2⟩ := absR_eq_ok hw
    exact ⟨br', by simp [decodeLoopRest, h1, contents], whatNext_started h1, h2⟩
  | cons b blocks ih =>
    obtain ⟨fuel, rfl⟩ : ∃ f, fuel = f + 1 := ⟨fuel - 1, by simp at hf; omega⟩
    have hw := absR_whatNext br
    rw [h] at hw
    simp only [blockFrames, List.flatMap_cons, blockFrame, List.append_assoc, pWhatNext_block] at hw
    obtain ⟨br1, h1, h2⟩ := absR_eq_ok hw
    have hd := absR_decodeBlockData br1
    have := hb b (by simp) (blockFrames blocks ++ footerMagic ++ tail)
    simp only [blockFrames, List.append_assoc, blockFrame] at this
    rw [h2, this] at hd
    obtain ⟨br2, g1, g2⟩ := absR_eq_ok hd
    obtain ⟨br', k1, k2, k3⟩ := ih (fun b' h' => hb b' (by simp [h'])) fuel (by simp at hf; omega) br2 (out ++ b.1)
      (by rw [g2]; simp [blockFrames, blockFrame])
    refine ⟨br', ?_, k2, k3⟩
    simp only [decodeLoopRest, h1, decodeBlock, g1, Writer.write, k1]
    simp [contents]

/-- After a stream of blocks that decode the reader stands four bytes before the end of the stream. -/
theorem decodeStreamRest_good (level : UInt8) (blocks : List (List UInt8 × List Bool))
    (hb : ∀ b ∈ blocks, ∀ rest, pBlock (natToBits 32 (Spec.crc32 b.1).toNat ++ b.2 ++ rest) = Res.ok (b.1, rest))
    (bytes more : List UInt8) (crc : BitVec 32)
    (hbytes : PaddedTo8 (streamHeader level ++ blockFrames blocks ++ footerMagic ++ natToBits 32 crc.toNat)
      (bytesBits bytes))
    (r : Reader) (hr : delivered r.events = bytes ++ more) (out : List UInt8) :
    ∃ rest, decodeStreamRest r ⟨out, []⟩ = (⟨out ++ contents blocks, []⟩, Res.ok rest) ∧
      delivered rest.events = bytes.drop (bytes.length - 4) ++ more := by
  obtain ⟨k, hk, hbits, -⟩ := hbytes
  have hb0 : (BitReader.fromReader r).bits = streamHeader level ++ (blockFrames blocks ++ footerMagic ++
      (natToBits 32 crc.toNat ++ List.replicate k false ++ bytesBits more)) := by
    rw [BitReader.fromReader_bits, hr, bytesBits_append, hbits]; simp
  have hh := pHeader_eq (BitReader.fromReader r)
  rw [hb0, pHeader_append] at hh
  rcases hx : readFileHeader (BitReader.fromReader r) with br | _ | _ | _ <;> simp [hx] at hh
  obtain ⟨br', k1, ⟨x, s1, s2, s3⟩, k3⟩ := decodeLoopRest_good blocks hb
      (natToBits 32 crc.toNat ++ List.replicate k false ++ bytesBits more) br.fuel (by
      have h1 := br.bits_lt_fuel
      have h2 := blockFrames_length blocks
      have h3 := congrArg List.length hh
      simp only [List.length_append] at h3
      omega) br out (by rw [← hh]; simp)
  refine ⟨⟨br'.events, r.failTail⟩, ?_, ?_⟩
  · simp only [decodeStreamRest, hx, k1]
  · simp only [BitReader.bits, s1] at k3
    have h1 : bytesBits (bytes ++ more) = (streamHeader level ++ blockFrames blocks ++ footerMagic
        ++ (byteBits x).drop br'.cursor) ++ bytesBits (delivered br'.events) := by
      rw [bytesBits_append, hbits]
      simp only [List.append_assoc]
      rw [k3]
      simp only [List.append_assoc]
    obtain ⟨y, y1, y2⟩ := split_delivered h1
    have hl := congrArg List.length k3
    have hl2 := congrArg List.length hbits
    have hl3 := congrArg List.length y1
    have hl4 := congrArg List.length y2
    simp at hl hl2 hl3 hl4
    have hy : y.length = bytes.length - 4 := by omega
    have : bytes ++ more = bytes.take (bytes.length - 4) ++ (bytes.drop (bytes.length - 4) ++ more) := by
      rw [← List.append_assoc, List.take_append_drop]
    rw [this] at y1
    exact ((List.append_inj y1 (by simp [hy])).2).symm

end Ribzip2
