import Verif.Proofs.Unique
import Verif.Props.Decode
import Verif.Props.RoundTrip
/- Properties of the decoder and of the format: C53 (the way the reader delivers its data does not matter),
C54 (the format is unambiguous), C55 (declared limits), C56 (crash points), C57 (randomised blocks). -/
namespace Ribzip2
open Spec

/-! ### C53 -/

/-- **C53.** What `decode_stream` writes and returns depends only on the bytes the reader delivers before
the end of file or the first error: not on how they are split into reads, not on `Interrupted` results, and
not on whether the data ends or the reader fails. For every writer. -/
theorem C53_only_the_delivered_bytes_matter (r r' : Reader) (w : Writer)
    (h : delivered r.events = delivered r'.events) : decodeStream r w = decodeStream r' w := by
  rw [decodeStream_eq, decodeStream_eq, h]

/-- **C53**: a read error is never taken for the end of a complete stream: if `decode_stream` returns Ok
although the reader failed, it returns Ok with the same output when the reader does not fail. -/
theorem C53_read_error_is_not_completeness (pre post : List REvent) (tail tail' : Bool)
    (hok : (decodeStream ⟨pre ++ REvent.fail :: post, tail⟩ Writer.empty).2 = Res.ok ()) :
    decodeStream ⟨pre ++ post, tail'⟩ Writer.empty = decodeStream ⟨pre ++ REvent.fail :: post, tail⟩ Writer.empty := by
  have : ∃ s, delivered (pre ++ post) = delivered (pre ++ REvent.fail :: post) ++ s := by
    clear hok
    induction pre with
    | nil => exact ⟨delivered post, by simp [delivered]⟩
    | cons e pre ih =>
      obtain ⟨s, hs⟩ := ih
      cases e with
      | intr => exact ⟨s, by simp only [List.cons_append, delivered, hs]⟩
      | fail => exact ⟨[], by simp [delivered]⟩
      | data bs =>
        by_cases hb : bs.isEmpty = true
        · exact ⟨[], by simp [delivered, hb]⟩
        · exact ⟨s, by simp only [List.cons_append, delivered, hb, hs, if_false, List.append_assoc, Bool.false_eq_true]⟩
  obtain ⟨s, hs⟩ := this
  exact C15_ok_on_prefix_is_ok_on_whole _ _ s hs hok

/-- Not vacuous: the sample in two reads with an interruption, and followed by an error. -/
example : delivered (Reader.ofBytes sampleA).events
      = delivered [REvent.data (sampleA.take 5), REvent.intr, REvent.data (sampleA.drop 5), REvent.fail] ∧
    (decodeStream ⟨[REvent.data (sampleA.take 5), REvent.intr, REvent.data (sampleA.drop 5)] ++ REvent.fail :: [],
      true⟩ Writer.empty) = (⟨[97], []⟩, Res.ok ()) := by decide +kernel

/-! ### C54 -/

/-- **C54.** The format is unambiguous: no byte string is a valid bzip2 stream for two different
contents. -/
theorem C54_content_is_unique (d e bytes : List UInt8) (h1 : ValidStream d bytes) (h2 : ValidStream e bytes) :
    d = e :=
  validStream_unique h1 h2

/-- **C54** for what `encode_stream` writes: whenever its output is a valid stream at all, of whatever
content, and the input is one that C35 covers, the content is the input. So every decoder that keeps to the
format restores it. -/
theorem C54_output_determines_the_input (dist : Distance) (d : List UInt8) (t : Nat) (ht : 1 ≤ t)
    (h : ∀ b ∈ blocksOf d, TransformSafe (rle1Encode b) ∧ (rle1Encode b).length ≤ 900000)
    (bytes e : List UInt8) (hb : encodeBytes dist d t Strategy.single = Res.ok bytes)
    (he : ValidStream e bytes) : e = d := by
  obtain ⟨bytes', h1, h2⟩ := C35_output_valid_partial dist d t ht h
  rw [hb] at h1
  simp only [Res.ok.injEq] at h1
  subst h1
  exact validStream_unique he h2

/-- Not vacuous: there are valid streams (here of "ab"). -/
example : ∃ bytes, ValidStream [97, 98] bytes := by
  obtain ⟨bytes, -, h2⟩ := C35_output_valid_small_partial (fun _ _ => 0) [97, 98] 1 (by omega) (by decide) (by
    have : rle1Encode [97, 98] = [97, 98] := by decide +kernel
    rw [this]
    apply transformSafe_of_minimal
    intro f hf
    have h4 : SmallestSuffixAt [97, 98] 0 := ⟨by decide, by decide +kernel⟩
    rw [smallestSuffixAt_unique hf h4]
    exact ⟨by decide, by decide +kernel⟩)
  exact ⟨bytes, h2⟩

/-! ### C55 -/

theorem bytes_of_bits (l : List Bool) : ∃ bytes k, k < 8 ∧ bytesBits bytes = l ++ List.replicate k false := by
  obtain ⟨bw, h1, h2, h3⟩ := (BitWriter.fromWriter ⟨[], []⟩).writeBits_good l (BitWriter.good_from [])
  obtain ⟨bw', -, k, hk, h4, -⟩ := bw.finalize_good h2
  exact ⟨bw'.w.out, k, hk, by rw [h4, h3]; simp [BitWriter.bits, BitWriter.fromWriter]⟩

/-- A block of `2 ^ (k + 1) - 2` bytes 255, described by `k` run symbols. -/
def bombParts (k : Nat) : BlockParts where
  rle := List.replicate (2 ^ (k + 1) - 2) 255
  last := List.replicate (2 ^ (k + 1) - 2) 255
  ptr := 0
  used := [255]
  syms := List.replicate k 1
  tables := [[2, 2, 2], [2, 2, 2]]
  tableBits := List.replicate 2 [false, false, false, true, false, false, false, false]
  sel := [0]
  selBits := [false]

theorem lengthTable_222 : LengthTable 1 20 [2, 2, 2] [false, false, false, true, false, false, false, false] := by
  have h : LengthSteps 1 20 2 2 [false] := LengthSteps.done (by omega) (by omega)
  exact ⟨2, [false] ++ ([false] ++ ([false] ++ [])), by omega, rfl, .cons h (.cons h (.cons h .nil))⟩

theorem zleDecode_ones (k w : Nat) : zleDecode w (List.replicate k 1) = List.replicate (w * (2 ^ (k + 1) - 2)) 0 := by
  induction k generalizing w with
  | zero => simp [zleDecode]
  | succ k ih =>
    rw [List.replicate_succ, zleDecode, ih, List.replicate_append_replicate]
    congr 1
    have h2 : 2 ≤ 2 ^ (k + 1) := by
      rw [Nat.pow_succ]; have := Nat.one_le_two_pow (n := k); omega
    obtain ⟨x, hx⟩ : ∃ x, 2 ^ (k + 1) = x + 2 := ⟨_, (Nat.sub_add_cancel h2).symm⟩
    rw [Nat.pow_succ 2 (k + 1), hx, show (x + 2) * 2 - 2 = 2 * x + 2 by omega, show x + 2 - 2 = x by omega]
    rw [Nat.mul_add]
    have : w * (2 * x) = 2 * w * x := by rw [Nat.mul_comm 2 x, ← Nat.mul_assoc, Nat.mul_comm (w * x) 2, Nat.mul_assoc]
    omega

theorem mtfDecode_zeros (b : UInt8) (n : Nat) : mtfDecode [b] (List.replicate n 0) = some (List.replicate n b) := by
  induction n with
  | zero => rfl
  | succ n ih => simp [List.replicate_succ, mtfDecode, ih]

theorem isBwt_replicate (n : Nat) (hn : 1 ≤ n) (b : UInt8) : IsBwt (List.replicate n b) (List.replicate n b) 0 := by
  have hrot : rotations (List.replicate n b) = List.replicate n (List.replicate n b) := by
    rw [rotations, List.length_replicate]
    rw [List.eq_replicate_iff]
    refine ⟨by simp, ?_⟩
    intro x hx
    obtain ⟨i, hi, rfl⟩ := List.mem_map.1 hx
    have := List.mem_range.1 hi
    rw [rotation, List.drop_replicate, List.take_replicate, List.replicate_append_replicate]
    congr 1
    omega
  refine ⟨List.replicate n (List.replicate n b), by rw [hrot], ?_, ?_, ?_⟩
  · rw [List.pairwise_replicate]
    exact Or.inr (List.le_refl _)
  · rw [List.map_replicate]
    congr 1
    cases n with
    | zero => omega
    | succ n =>
      rw [List.getLastD_eq_getLast?, List.getLast?_replicate]
      simp
  · simp [List.getElem?_replicate]; omega

theorem inverseRle_length (l : List UInt8) (h : ∀ x ∈ l, 1 ≤ x.toNat) : l.length ≤ (inverseRle l).length := by
  have : ∀ (l : List UInt8) (s : InvRle), (∀ x ∈ l, 1 ≤ x.toNat) →
      s.output.length + l.length ≤ (l.foldl invRleStep s).output.length := by
    intro l
    induction l with
    | nil => intro s _; simp
    | cons x l ih =>
      intro s hs
      have h1 := ih (invRleStep s x) (fun y hy => hs y (by simp [hy]))
      have h2 : s.output.length + 1 ≤ (invRleStep s x).output.length := by
        have := hs x (by simp)
        unfold invRleStep
        split
        · split
          · simp; omega
          · split <;> simp
        · simp
      simp only [List.length_cons, List.foldl_cons]
      omega
  simpa [inverseRle] using this l ⟨[], 0, none⟩ h

theorem bomb_readable (k : Nat) (hk : k ≤ 49) : Readable (bombParts k) where
  ptr := by simp [bombParts]
  used := by simp [bombParts]
  usedNe := by simp [bombParts]
  symbols := by
    intro s hs
    have := List.eq_of_mem_replicate hs
    simp [bombParts, this]
  numTables := by simp [bombParts]
  lengths := by simp [bombParts, KraftLe, kraft]
  transmitted := .cons lengthTable_222 (.cons lengthTable_222 .nil)
  numSelectors := by simp [bombParts]
  selected := ⟨[0], by simp [bombParts, mtfDecode], by simp [bombParts, unary]⟩
  enough := by simp [bombParts]; omega
  exact := by simp [bombParts]

theorem bomb_payload_length (m : Nat) (l : List Nat) (h : ∀ s ∈ l, s < 3) :
    (payloadBits [[2, 2, 2], [2, 2, 2]] [0] m l).length ≤ 2 * l.length := by
  induction l generalizing m with
  | nil => simp [payloadBits]
  | cons s l ih =>
    have h1 := ih (m + 1) (fun x hx => h x (by simp [hx]))
    have hs := h s (by simp)
    have h2 : (codeBits (List.getD [[2, 2, 2], [2, 2, 2]] (List.getD [0] (m / 50) 0) []) s).length ≤ 2 := by
      have h0 : List.getD [0] (m / 50) 0 = 0 := by
        generalize m / 50 = i
        cases i <;> simp
      rw [h0]
      have : s = 0 ∨ s = 1 ∨ s = 2 := by omega
      rcases this with rfl | rfl | rfl <;> simp [codeBits, len]
    simp only [payloadBits, List.length_append, List.length_cons]
    omega

theorem bomb_decodes (k : Nat) (hk : 1 ≤ k) (hk2 : k ≤ 49) : ∃ bytes, bytes.length ≤ 64 ∧
    decodeBytes bytes = Res.ok (inverseRle (List.replicate (2 ^ (k + 1) - 2) 255)) := by
  have hpow : 4 ≤ 2 ^ (k + 1) := by
    have := Nat.pow_le_pow_right (n := 2) (by omega) (show 2 ≤ k + 1 by omega)
    omega
  have hpow2 : 2 ^ (k + 1) ≤ 2 ^ 50 := Nat.pow_le_pow_right (by omega) (by omega)
  obtain ⟨d, hd⟩ : ∃ d, d = inverseRle (List.replicate (2 ^ (k + 1) - 2) (255 : UInt8)) := ⟨_, rfl⟩
  obtain ⟨bytes, j, hj, hb⟩ := bytes_of_bits (streamHeader 0x39 ++ blockFrames [(d, (bombParts k).body)] ++ footerMagic)
  refine ⟨bytes, ?_, ?_⟩
  · have hl := congrArg List.length hb
    have hp := bomb_payload_length 0 (List.replicate k 1 ++ [2]) (by
      intro s hs
      rcases List.mem_append.1 hs with h | h
      · rw [List.eq_of_mem_replicate h]; omega
      · simp at h; omega)
    have hsm : (symbolMapBits [255]).length = 32 := by decide +kernel
    have hbody : (bombParts k).body.length ≤ 95 + 2 * (k + 1) := by
      simp only [BlockParts.body, BlockParts.eob, bombParts, List.length_append, List.length_cons, List.length_nil,
        natToBits_length, hsm, List.length_flatten, List.map_replicate, List.sum_replicate] at hp ⊢
      simp at hp ⊢
      omega
    have hlen : (bytesBits bytes).length = 8 * bytes.length := by simp
    rw [hlen] at hl
    simp only [List.length_append, blockFrames, List.flatMap_cons, List.flatMap_nil, blockFrame, natToBits_length,
      blockMagic_length, footerMagic_length, List.length_replicate, List.length_nil] at hl
    have : (streamHeader 0x39).length = 32 := by decide +kernel
    omega
  · have hg := decodeBytes_good 0x39 [(d, (bombParts k).body)] bytes (List.replicate j false) (by
      intro b hb rest
      simp only [List.mem_singleton] at hb
      subst hb
      have hmtf : mtfDecode (bombParts k).used (zleDecode 1 (bombParts k).syms) = some (bombParts k).last := by
        show mtfDecode [(255 : UInt8)] (zleDecode 1 (List.replicate k 1)) = some (List.replicate (2 ^ (k + 1) - 2) 255)
        rw [zleDecode_ones, Nat.one_mul, mtfDecode_zeros]
      have hbwt : IsBwt (bombParts k).rle (bombParts k).last (bombParts k).ptr :=
        isBwt_replicate (2 ^ (k + 1) - 2) (by omega) 255
      have hr := bomb_readable k hk2
      rw [pBlock_body _ hr, finishBlock_valid _ hr.used hr.symbols hmtf hbwt
        (by show (List.replicate (2 ^ (k + 1) - 2) (255 : UInt8)).length + 1 ≤ 2 ^ 63; rw [List.length_replicate]; omega)]
      have : inverseRle (bombParts k).rle = d := hd.symm
      rw [this, crc32_eq_spec, if_pos rfl]
      rfl) (by rw [hb])
    rw [hg, ← hd]
    simp [contents]

/-- **C55 is false** (1): the limit on the size of a block is not enforced. A stream of at most 64 bytes that
claims blocks of at most 900000 bytes (which stand for at most 51 times as much data) can decode to
1125899906842622 bytes or more, and streams of the same size exist for every power of two below. -/
theorem C55_refuted_block_size (k : Nat) (hk : 1 ≤ k) (hk2 : k ≤ 49) :
    ∃ bytes d : List UInt8, bytes.length ≤ 64 ∧ decodeBytes bytes = Res.ok d ∧ 2 ^ (k + 1) - 2 ≤ d.length := by
  obtain ⟨bytes, h1, h2⟩ := bomb_decodes k hk hk2
  refine ⟨bytes, _, h1, h2, ?_⟩
  have := inverseRle_length (List.replicate (2 ^ (k + 1) - 2) 255) (by
    intro x hx; rw [List.eq_of_mem_replicate hx]; decide)
  simpa using this

/-- **C55 is false** (2), as a bound: if the limit of 900000 bytes per block (standing for at most 51 times as much
data) were enforced, a stream could not expand by more than a factor of 45900000, since it has fewer blocks
than bytes. -/
theorem C55_refuted : ¬ ∀ bytes d : List UInt8, decodeBytes bytes = Res.ok d →
    d.length ≤ 51 * 900000 * (bytes.length + 1) := by
  intro h
  obtain ⟨bytes, d, h1, h2, h3⟩ := C55_refuted_block_size 49 (by omega) (by omega)
  have h4 := h bytes d h2
  have : 51 * 900000 * (bytes.length + 1) ≤ 51 * 900000 * 65 := Nat.mul_le_mul_left _ (by omega)
  have h5 : (2 : Nat) ^ (49 + 1) = 1125899906842624 := by norm_num
  omega

/-- **C55 is false** (3): the digit of the header is not looked at; every byte there gives the same
result. -/
theorem C55_level_is_ignored (a b : UInt8) (rest : List UInt8) (r r' : Reader) (w : Writer)
    (hr : delivered r.events = 0x42 :: 0x5a :: 0x68 :: a :: rest)
    (hr' : delivered r'.events = 0x42 :: 0x5a :: 0x68 :: b :: rest) : decodeStream r w = decodeStream r' w := by
  have e : ∀ l : UInt8, bytesBits (0x42 :: 0x5a :: 0x68 :: l :: rest) = streamHeader l ++ bytesBits rest := by
    intro l
    rw [streamHeader, ← bytesBits_append]
    rfl
  rw [decodeStream_eq, decodeStream_eq, hr, hr', e, e]
  simp only [pStream, pHeader_append]

/-- The sample with the level byte 0, which no encoder writes. -/
example : decodeBytes (sampleA.set 3 0) = Res.ok [97] := by decide +kernel

/-! ### C57 -/

/-- **C57 is false.** The flag for randomised blocks has no influence: whatever the block is, it is decoded
(or refused) in the same way with either value of the flag. Stated for the first block of a stream, on the
bits of the stream. -/
theorem C57_randomised_flag_is_ignored (level : UInt8) (crc : BitVec 32) (body : List Bool) (x y : Bool)
    (r r' : Reader) (w : Writer)
    (hr : inputBits r = streamHeader level ++ blockMagic ++ natToBits 32 crc.toNat ++ [x] ++ body)
    (hr' : inputBits r' = streamHeader level ++ blockMagic ++ natToBits 32 crc.toNat ++ [y] ++ body) :
    decodeStream r w = decodeStream r' w := by
  have key : ∀ z, pStream (streamHeader level ++ blockMagic ++ natToBits 32 crc.toNat ++ [z] ++ body)
      = pStream (streamHeader level ++ blockMagic ++ natToBits 32 crc.toNat ++ [false] ++ body) := by
    intro z
    have t1 : ∀ z : Bool, takeBits 1 ([z] ++ body) = Res.ok ([z], body) := fun z => takeBits_append (xs := [z]) rfl
    simp only [List.append_assoc, pStream, pHeader_append, List.length_append, List.length_cons]
    generalize blockMagic.length + _ + 1 = fuel
    cases fuel with
    | zero => rfl
    | succ fuel =>
      simp only [pBlocks, pWhatNext_block, pBlock, takeBits_append (natToBits_length 32 _), Res.unwrap_ok, Res.ok_bind, t1]
  rw [decodeStream_eq, decodeStream_eq, show bytesBits (delivered r.events) = _ from hr,
    show bytesBits (delivered r'.events) = _ from hr', key x, key y]

/-- The sample with the flag set is decoded as without it. -/
example : decodeBytes (sampleA.set 14 0x80) = Res.ok [97] ∧ decodeBytes sampleA = Res.ok [97] := by decide +kernel

/-! ### C56 -/

theorem pBlocks_cut (blocks : List (List UInt8 × List Bool))
    (h : ∀ b ∈ blocks, ∃ X : Res (List UInt8), ∀ rest,
      pBlock (natToBits 32 (Spec.crc32 b.1).toNat ++ b.2 ++ rest) = (X >>= fun d => Res.ok (d, rest)))
    (x : List Bit) (hx : x.length < 48) (fuel : Nat) : (pBlocks fuel (blockFrames blocks ++ x)).2 ≠ Res.ok () := by
  induction blocks generalizing fuel with
  | nil =>
    cases fuel with
    | zero => simp [pBlocks]
    | succ fuel =>
      simp only [blockFrames, List.flatMap_nil, List.nil_append, pBlocks]
      rcases hw : pWhatNext x with ⟨t, rest⟩ | _ | _ | _
      · have := pWhatNext_len hw
        omega
      all_goals simp
  | cons b blocks ih =>
    cases fuel with
    | zero => simp [pBlocks]
    | succ fuel =>
      obtain ⟨X, hX⟩ := h b (by simp)
      have h1 := hX (blockFrames blocks ++ x)
      simp only [blockFrames, List.flatMap_cons, blockFrame, List.append_assoc, pBlocks, pWhatNext_block] at h1 ⊢
      rw [h1]
      rcases X with d | _ | _ | _
      · exact ih (fun c hc => h c (by simp [hc])) fuel
      all_goals simp

/-- **C56.** A crash while the output of `encode_stream` is being written, at any point: for every input
that round-trips (C01 says which do) and every prefix of its stream, `decode_stream` of the prefix either fails, having
written a prefix of the input, or returns Ok having written exactly the input; and it returns Ok only if all
blocks and the end-of-stream magic are there: at most the last 4 bytes are missing. -/
theorem C56_prefix_of_output (dist : Distance) (d : List UInt8) (t : Nat) (ht : 1 ≤ t)
    (bytes file : List UInt8) (he : encodeBytes dist d t Strategy.single = Res.ok bytes)
    (hdec : decodeBytes bytes = Res.ok d) (hf : file <+: bytes) :
    (decodeStream (Reader.ofBytes file) Writer.empty).1.out <+: d ∧
    ((decodeStream (Reader.ofBytes file) Writer.empty).2 = Res.ok () →
      (decodeStream (Reader.ofBytes file) Writer.empty).1.out = d ∧ bytes.length ≤ file.length + 4) := by
  obtain ⟨blocks, bytes', e1, e2, e3, e4⟩ := encodeBytes_single dist d t ht
  rw [he] at e1
  simp only [Res.ok.injEq] at e1
  subst e1
  obtain ⟨s, hs⟩ := hf
  have hpre : delivered (Reader.ofBytes bytes).events = delivered (Reader.ofBytes file).events ++ s := by
    simp [Reader.ofBytes, ← hs]
  have hw : decodeStream (Reader.ofBytes bytes) Writer.empty = (⟨d, []⟩, Res.ok ()) := by
    have h2 := decodeStream_reliable (Reader.ofBytes bytes) []
    have h3 : decodeBytes bytes = match decodeStream (Reader.ofBytes bytes) Writer.empty with
      | (w, Res.ok _) => Res.ok w.out
      | (_, Res.err) => Res.err
      | (_, Res.panic) => Res.panic
      | (_, Res.div) => Res.div := rfl
    rw [h3] at hdec
    rw [show (⟨[], []⟩ : Writer) = Writer.empty from rfl] at h2
    rw [h2] at hdec ⊢
    rcases hx : (pStream (bytesBits (delivered (Reader.ofBytes bytes).events))).2 with u | _ | _ | _ <;>
      rw [hx] at hdec <;> simp at hdec
    simp [hdec]
  refine ⟨?_, fun hok => ?_⟩
  · have := C16_output_on_prefix_is_prefix _ _ s hpre
    rw [hw] at this
    exact this
  · have h15 := C15_ok_on_prefix_is_ok_on_whole _ _ s hpre hok
    rw [hw] at h15
    refine ⟨by rw [← h15], ?_⟩
    by_contra hlt
    obtain ⟨k, hk, hbits, -⟩ := e4
    have hblocks : ∀ b ∈ blocks, ∃ X : Res (List UInt8), ∀ rest,
        pBlock (natToBits 32 (Spec.crc32 b.1).toNat ++ b.2 ++ rest) = (X >>= fun d => Res.ok (d, rest)) := by
      intro b hb'
      obtain ⟨p, p1, p2⟩ := e3 b hb'
      exact ⟨_, fun rest => by rw [p2]; exact pBlock_body p p1.readable _ rest⟩
    -- the bits of the file are a prefix of header, blocks and a shortened footer magic
    have hl1 : (bytesBits bytes).length = 8 * bytes.length := by simp
    have hl2 : (bytesBits file).length = 8 * file.length := by simp
    have hfoot : footerMagic = footerMagic.take 47 ++ footerMagic.drop 47 := (List.take_append_drop 47 _).symm
    have hfl : (footerMagic.take 47).length = 47 := by rw [List.length_take, footerMagic_length]; rfl
    have hdl : (footerMagic.drop 47).length = 1 := by rw [List.length_drop, footerMagic_length]
    have hcut : bytesBits file <+: streamHeader 0x39 ++ (blockFrames blocks ++ footerMagic.take 47) := by
      have p1 : bytesBits file <+: bytesBits bytes := ⟨bytesBits s, by rw [← bytesBits_append, hs]⟩
      have p2 : streamHeader 0x39 ++ (blockFrames blocks ++ footerMagic.take 47) <+: bytesBits bytes := by
        rw [hbits]
        refine ⟨footerMagic.drop 47 ++ (natToBits 32 (streamCrc blocks).toNat ++ List.replicate k false), ?_⟩
        conv => rhs; rw [hfoot]
        simp only [List.append_assoc]
      refine List.prefix_of_prefix_length_le p1 p2 ?_
      have h3 := congrArg List.length hbits
      rw [hl1] at h3
      simp only [List.length_append, natToBits_length, List.length_replicate, footerMagic_length] at h3
      simp only [List.length_append, hfl, hl2]
      omega
    obtain ⟨e, he'⟩ := hcut
    have hok2 : (pStream (bytesBits file)).2 = Res.ok () := by
      have := hok
      simp only [Writer.empty, decodeStream_reliable, Reader.ofBytes, delivered_data] at this
      exact this
    have hm := (pStream_mono (bytesBits file) e).2 hok2
    rw [he'] at hm
    rw [← hm, pStream, pHeader_append] at hok2
    simp only at hok2
    exact pBlocks_cut blocks hblocks _ (by rw [hfl]; omega) _ hok2

/-- The hypotheses of C56 are met. -/
example : encodeBytes (fun _ _ => 0) [97] 1 Strategy.single = Res.ok sampleA ∧ decodeBytes sampleA = Res.ok [97] := by
  decide +kernel

/-- Both outcomes of C56 occur. -/
example : (decodeStream (Reader.ofBytes (sampleA.take 33)) Writer.empty) = (⟨[97], []⟩, Res.ok ()) ∧
    (decodeStream (Reader.ofBytes (sampleA.take 32)) Writer.empty) = (⟨[97], []⟩, Res.err) := by decide +kernel

end Ribzip2
