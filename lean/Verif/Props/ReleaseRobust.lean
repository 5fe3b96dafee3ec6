import Verif.Props.Release
import Verif.Props.Robust
/- Property C63, continued: C40, C46, C53 and C56 for release builds. -/
namespace Ribzip2
open Spec

/-- **C63** (C40 for release builds). If the input does not begin with `B`, `Z`, `h` and one more byte, `decode_stream`
returns Err and never calls the writer. -/
theorem C63_wrong_magic_rejected (r : Reader) (w : Writer)
    (h : ¬ ∃ level rest, delivered r.events = 0x42 :: 0x5a :: 0x68 :: level :: rest) :
    Release.decodeStream r w = (w, Res.err) := by
  have := C40_wrong_magic_rejected r w h
  rw [C62_release_agrees r w (by rw [this]; simp), this]

/-- **C63** (C53 for release builds). What is written and returned depends only on the bytes the reader delivers before
the end of file or the first error. -/
theorem C63_only_the_delivered_bytes_matter (r r' : Reader) (w : Writer)
    (h : delivered r.events = delivered r'.events) : Release.decodeStream r w = Release.decodeStream r' w := by
  rw [Release.decodeStream_eq, Release.decodeStream_eq, h]

/-- **C63** (C53 for release builds): a read error is never taken for the end of a complete stream. -/
theorem C63_read_error_is_not_completeness (pre post : List REvent) (tail tail' : Bool)
    (hok : (Release.decodeStream ⟨pre ++ REvent.fail :: post, tail⟩ Writer.empty).2 = Res.ok ()) :
    Release.decodeStream ⟨pre ++ post, tail'⟩ Writer.empty
      = Release.decodeStream ⟨pre ++ REvent.fail :: post, tail⟩ Writer.empty := by
  have : ∃ s, delivered (pre ++ post) = delivered (pre ++ REvent.fail :: post) ++ s := by
    clear hok
    induction pre with
    | nil => exact ⟨delivered post, by simp [delivered]⟩
    | cons e pre ih =>
      obtain ⟨s, hs⟩ := ih
      cases e with
      | intr => exact ⟨s, by simp only [List.cons_append, delivered, hs]⟩
      | fail => exact ⟨[], by simp [delivered]⟩
      | data bs =>
        by_cases hb : bs.isEmpty = true
        · exact ⟨[], by simp [delivered, hb]⟩
        · exact ⟨s, by simp only [List.cons_append, delivered, hb, hs, if_false, List.append_assoc, Bool.false_eq_true]⟩
  obtain ⟨s, hs⟩ := this
  exact C63_ok_on_prefix_is_ok_on_whole _ _ s hs hok

/-- A stream that only the release build accepts, followed by an error of the reader. -/
example : (Release.decodeStream ⟨[REvent.data sampleBelowZero] ++ REvent.fail :: [REvent.data [1]], false⟩
    Writer.empty).2 = Res.ok () := by decide +kernel

/-- The release build does the same if the other build returns Ok or Err. -/
theorem release_decodeBytes (bytes : List UInt8) (h : decodeBytes bytes ≠ Res.panic) :
    Release.decodeBytes bytes = decodeBytes bytes := by
  have hne : (decodeStream (Reader.ofBytes bytes) Writer.empty).2 ≠ Res.panic := by
    intro hp
    apply h
    unfold decodeBytes
    generalize decodeStream (Reader.ofBytes bytes) Writer.empty = x at *
    obtain ⟨w, (_ | _ | _ | _)⟩ := x <;> simp at hp ⊢
  rw [Release.decodeBytes, C62_release_agrees _ _ hne, decodeBytes]
  rfl

/-- **C63** (C46 for release builds). `decode_stream` on what `encode_stream` wrote (single table) never panics: it returns
an error, or Ok and then each block it wrote has the CRC of the corresponding block of the input. -/
theorem C63_failed_round_trip_is_reported (dist : Distance) (d : List UInt8) (t : Nat) (ht : 1 ≤ t) :
    ∃ bytes, encodeBytes dist d t Strategy.single = Res.ok bytes ∧
      (Release.decodeBytes bytes = Res.err ∨ ∃ ins outs : List (List UInt8), ins.flatten = d ∧
        Release.decodeBytes bytes = Res.ok outs.flatten ∧ outs.map Spec.crc32 = ins.map Spec.crc32) := by
  obtain ⟨bytes, e1, e2⟩ := C46_failed_round_trip_is_reported dist d t ht
  refine ⟨bytes, e1, ?_⟩
  rw [release_decodeBytes bytes (by rcases e2 with e | ⟨_, _, _, e, _⟩ <;> rw [e] <;> simp)]
  exact e2

/-- Blocks the encoder wrote, and then fewer bits than a magic number: an error, also if a block does not decode. -/
theorem pBlocks_cut_err (n : Nat) (blocks : List (List UInt8 × List Bool))
    (h : ∀ b ∈ blocks, ∃ p, WrittenBlock n b.1 p ∧ b.2 = p.body) (x : List Bit) (hx : x.length < 48) (fuel : Nat)
    (hf : blocks.length < fuel) : (pBlocks fuel (blockFrames blocks ++ x)).2 = Res.err := by
  induction blocks generalizing fuel with
  | nil =>
    obtain ⟨fuel, rfl⟩ : ∃ f, fuel = f + 1 := ⟨fuel - 1, by omega⟩
    simp only [blockFrames, List.flatMap_nil, List.nil_append, pBlocks]
    rcases hw : pWhatNext x with ⟨t, rest⟩ | _ | _ | _
    · have := pWhatNext_len hw
      omega
    · rfl
    · exact absurd hw (pWhatNext_ne x).2
    · exact absurd hw (pWhatNext_ne x).1
  | cons b blocks ih =>
    obtain ⟨fuel, rfl⟩ : ∃ f, fuel = f + 1 := ⟨fuel - 1, by simp at hf; omega⟩
    obtain ⟨p, p1, p2⟩ := h b (by simp)
    have e : blockFrames (b :: blocks) ++ x
        = blockMagic ++ (natToBits 32 (Spec.crc32 b.1).toNat ++ p.body ++ (blockFrames blocks ++ x)) := by
      simp [blockFrames, blockFrame, p2]
    rw [e]
    simp only [pBlocks, pWhatNext_block]
    rcases pBlock_written n b.1 p p1 (blockFrames blocks ++ x) with hb | ⟨b', hb, hc⟩
    · rw [hb]
    · rw [hb]
      exact ih (fun x hx => h x (by simp [hx])) fuel (by simpa using hf)

/-- **C63** (C56 for release builds). A crash while the output of `encode_stream` is being written, at any point: for every
input that round-trips and every prefix of its stream, `decode_stream` of the prefix either fails, having
written a prefix of the input, or returns Ok having written exactly the input, and then at most the last 4 bytes are
missing. -/
theorem C63_prefix_of_output (dist : Distance) (d : List UInt8) (t : Nat) (ht : 1 ≤ t)
    (bytes file : List UInt8) (he : encodeBytes dist d t Strategy.single = Res.ok bytes)
    (hdec : Release.decodeBytes bytes = Res.ok d) (hf : file <+: bytes) :
    (Release.decodeStream (Reader.ofBytes file) Writer.empty).1.out <+: d ∧
    ((Release.decodeStream (Reader.ofBytes file) Writer.empty).2 = Res.ok () →
      (Release.decodeStream (Reader.ofBytes file) Writer.empty).1.out = d ∧ bytes.length ≤ file.length + 4) := by
  obtain ⟨blocks, bytes', e1, e2, e3, e4⟩ := encodeBytes_single dist d t ht
  rw [he] at e1
  simp only [Res.ok.injEq] at e1
  subst e1
  obtain ⟨s, hs⟩ := hf
  have hpre : delivered (Reader.ofBytes bytes).events = delivered (Reader.ofBytes file).events ++ s := by
    simp [Reader.ofBytes, ← hs]
  have hw : (Release.decodeStream (Reader.ofBytes bytes) Writer.empty).1.out = d := by
    unfold Release.decodeBytes at hdec
    generalize Release.decodeStream (Reader.ofBytes bytes) Writer.empty = x at *
    obtain ⟨w, (_ | _ | _ | _)⟩ := x <;> simp at hdec ⊢
    exact hdec
  refine ⟨?_, fun hok => ?_⟩
  · have := C63_output_on_prefix_is_prefix _ _ s hpre
    rw [hw] at this
    exact this
  · have h15 := C63_ok_on_prefix_is_ok_on_whole _ _ s hpre hok
    refine ⟨by rw [← h15, hw], ?_⟩
    by_contra hlt
    obtain ⟨k, hk, hbits, -⟩ := e4
    have hl1 : (bytesBits bytes).length = 8 * bytes.length := by simp
    have hl2 : (bytesBits file).length = 8 * file.length := by simp
    have hfoot : footerMagic = footerMagic.take 47 ++ footerMagic.drop 47 := (List.take_append_drop 47 _).symm
    have hfl : (footerMagic.take 47).length = 47 := by rw [List.length_take, footerMagic_length]; rfl
    have hcut : bytesBits file <+: streamHeader 0x39 ++ (blockFrames blocks ++ footerMagic.take 47) := by
      have p1 : bytesBits file <+: bytesBits bytes := ⟨bytesBits s, by rw [← bytesBits_append, hs]⟩
      have p2 : streamHeader 0x39 ++ (blockFrames blocks ++ footerMagic.take 47) <+: bytesBits bytes := by
        rw [hbits]
        refine ⟨footerMagic.drop 47 ++ (natToBits 32 (streamCrc blocks).toNat ++ List.replicate k false), ?_⟩
        conv => rhs; rw [hfoot]
        simp only [List.append_assoc]
      refine List.prefix_of_prefix_length_le p1 p2 ?_
      have h3 := congrArg List.length hbits
      rw [hl1] at h3
      simp only [List.length_append, natToBits_length, List.length_replicate, footerMagic_length] at h3
      simp only [List.length_append, hfl, hl2]
      omega
    obtain ⟨e, he'⟩ := hcut
    have hok2 : (Release.pStream (bytesBits file)).2 = Res.ok () := by
      have := hok
      simp only [Writer.empty, Release.decodeStream_reliable, Reader.ofBytes, delivered_data] at this
      exact this
    have hm := (Release.pStream_mono (bytesBits file) e).2 hok2
    rw [he'] at hm
    have herr : (pStream (streamHeader 0x39 ++ (blockFrames blocks ++ footerMagic.take 47))).2 = Res.err := by
      rw [pStream, pHeader_append]
      simp only
      refine pBlocks_cut_err 2 blocks e3 _ (by rw [hfl]; omega) _ ?_
      have := blockFrames_length blocks
      simp only [List.length_append]
      omega
    rw [← hm, (Release.agree_stream _).1 (by rw [herr]; simp), herr] at hok2
    simp at hok2

/-- The hypotheses of `C63_prefix_of_output` are met, and both outcomes occur. -/
example : encodeBytes (fun _ _ => 0) [97] 1 Strategy.single = Res.ok sampleA ∧
    Release.decodeBytes sampleA = Res.ok [97] ∧
    Release.decodeStream (Reader.ofBytes (sampleA.take 33)) Writer.empty = (⟨[97], []⟩, Res.ok ()) ∧
    Release.decodeStream (Reader.ofBytes (sampleA.take 32)) Writer.empty = (⟨[97], []⟩, Res.err) := by decide +kernel

end Ribzip2
