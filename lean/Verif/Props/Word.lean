import Verif.Proofs.WordStream
import Verif.Proofs.WordDecode
import Verif.Props.BlockWise
import Verif.Props.Format
import Verif.Props.Decode
/- Properties C87, C88: overflow, and machines with other word sizes than 64 bits. -/
namespace Ribzip2
open Spec

/-! ### C87 -/

/-- **C87**: on every machine with at least 32 bits and for every reader, writer, number of threads and strategy with up to
131072 tables, no `usize` operation of `encode_stream` overflows, and calls, output and result are those of arithmetic with
unbounded numbers: word size and overflow checks make no difference. -/
theorem C87_same_output (bits : Nat) (hb : 32 ≤ bits) (r : Reader) (w : Writer) (t : Nat) (strategy : Strategy)
    (hs : strategy = Strategy.single ∨ ∃ tables iterations, strategy = Strategy.blockWise tables iterations ∧
      tables ≤ 131072) :
    Word.encodeStream bits r w t strategy = encodeStream euclid r w t strategy := by
  refine Word.encodeStreamFuel_ok bits hb _ r w t strategy ?_
  rcases hs with h | ⟨n, i, h, hn⟩
  · rw [h]; trivial
  · rw [h]; exact hn

/-- **C87**, also for runs that do not end within a number of steps. -/
theorem C87_same_run (bits : Nat) (hb : 32 ≤ bits) (fuel : Nat) (r : Reader) (w : Writer) (t : Nat) (strategy : Strategy)
    (hs : strategy = Strategy.single ∨ ∃ tables iterations, strategy = Strategy.blockWise tables iterations ∧
      tables ≤ 131072) :
    Word.encodeStreamFuel bits fuel r w t strategy = encodeStreamFuel fuel euclid r w t strategy := by
  refine Word.encodeStreamFuel_ok bits hb _ r w t strategy ?_
  rcases hs with h | ⟨n, i, h, hn⟩
  · rw [h]; trivial
  · rw [h]; exact hn

/-- **C87**: hence two machines give the same bytes. -/
theorem C87_machines_agree (bits bits' : Nat) (hb : 32 ≤ bits) (hb' : 32 ≤ bits') (r : Reader) (w : Writer) (t : Nat)
    (strategy : Strategy)
    (hs : strategy = Strategy.single ∨ ∃ tables iterations, strategy = Strategy.blockWise tables iterations ∧
      tables ≤ 131072) :
    Word.encodeStream bits r w t strategy = Word.encodeStream bits' r w t strategy := by
  rw [C87_same_output bits hb r w t strategy hs, C87_same_output bits' hb' r w t strategy hs]

/-- **C87**: with the single-table strategy and a writer that works, the encoder never panics, overflow included. -/
theorem C87_never_panics (bits : Nat) (hb : 32 ≤ bits) (fuel : Nat) (r : Reader) (t : Nat) :
    (Word.encodeStreamFuel bits fuel r Writer.empty t Strategy.single).2 = Res.ok () ∨
    (Word.encodeStreamFuel bits fuel r Writer.empty t Strategy.single).2 = Res.div := by
  rw [C87_same_run bits hb fuel r Writer.empty t Strategy.single (Or.inl rfl)]
  exact C39_never_panics fuel euclid r t

/-- Both strategies meet the hypothesis, the second one with the two tables of the command line. -/
example : (Strategy.blockWise 6 20 = Strategy.single ∨ ∃ tables iterations,
    Strategy.blockWise 6 20 = Strategy.blockWise tables iterations ∧ tables ≤ 131072) :=
  Or.inr ⟨6, 20, rfl, by omega⟩

/-- "banana" with 32 bits. -/
example : (Word.encodeStream 32 (Reader.ofBytes [98, 97, 110, 97, 110, 97]) Writer.empty 2 Strategy.single).2 = Res.ok () := by
  decide +kernel

/-- Overflow is seen by the model: with words of four bits "banana" panics. -/
example : (Word.encodeStream 4 (Reader.ofBytes ([98, 97, 110, 97, 110, 97])) Writer.empty 2 Strategy.single).2
    = Res.panic := by
  decide +kernel

/-! ### C88 -/

/-- A block of the decoder. -/
theorem Word.pBlock_valid (bits : Nat) (hb : 32 ≤ bits) (h64 : bits ≤ 64) (limit : Nat) (hl : limit ≤ 900000)
    (b : List UInt8 × List Bool)
    (h : ∃ p : BlockParts, p.Valid limit b.1 ∧ b.2 = p.body ∧
      50 * p.sel.length < p.syms.length + 51 ∧ countHazard p.rle = false) (rest : List Bit) :
    Word.pBlock bits (natToBits 32 (Spec.crc32 b.1).toNat ++ b.2 ++ rest) = Res.ok (b.1, rest) := by
  have hok := Ribzip2.pBlock_valid limit hl b h rest
  obtain ⟨p, p1, p2, p3, p4⟩ := h
  rw [p2] at hok ⊢
  refine Word.pBlock_body_ok bits hb h64 p (p1.readable p3) _ rest b.1 ?_ hok
  rw [← p1.content]
  have := rle1Decode_length p.rle
  have := p1.size
  omega

/-- **C88**, partial: on every machine with 32 to 64 bits, every valid stream (of any level and encoder, without surplus
selectors and repeat counts that are taken for data, as in C34) decodes to its content, with no overflow. -/
theorem C88_valid_streams_decode_partial (bits : Nat) (hb : 32 ≤ bits) (h64 : bits ≤ 64) (level : Nat)
    (blocks : List (List UInt8 × List Bool)) (bytes : List UInt8) (h : StreamOf level blocks bytes)
    (hv : ∀ b ∈ blocks, ∃ p : BlockParts, p.Valid (100000 * level) b.1 ∧ b.2 = p.body ∧
      50 * p.sel.length < p.syms.length + 51 ∧ countHazard p.rle = false) :
    Word.decodeBytes bits bytes = Res.ok (contents blocks) := by
  obtain ⟨h1, h2, k, hk, hbits, -⟩ := h
  exact Word.decodeBytes_good bits (UInt8.ofNat (0x30 + level)) blocks bytes
    (natToBits 32 (streamCrc blocks).toNat ++ List.replicate k false)
    (fun b hmem rest => Word.pBlock_valid bits hb h64 (100000 * level) (by omega) b (hv b hmem) rest) (by rw [hbits]; simp)

/-- The stream for "ab" in which one selector is used, on a 32 bit machine. -/
example : Word.decodeBytes 32 [66, 90, 104, 57, 49, 65, 89, 38, 83, 89, 233, 147, 253, 205, 0, 0, 0, 1, 0, 48, 0, 32, 0, 33,
    0, 130, 177, 119, 36, 83, 133, 9, 14, 153, 63, 220, 208] = Res.ok [97, 98] :=
  C88_valid_streams_decode_partial 32 (by decide) (by decide) 9 [([97, 98], (abParts [0]).body)] _
    ⟨by omega, by omega, 4, by omega, by decide +kernel, by decide +kernel⟩
    (fun b hb => by
      rw [List.mem_singleton.1 hb]
      exact ⟨abParts [0], abParts_valid 1 (by omega) (by omega), rfl, by decide, by decide⟩)

/-- **C88**, partial: whatever is compressed on one machine and decompresses to the input there (by C01) is decompressed
by every other machine with 32 to 64 bits. -/
theorem C88_round_trip_across_machines_partial (bits bits' : Nat) (hb : 32 ≤ bits) (hb' : 32 ≤ bits') (h64 : bits' ≤ 64)
    (d : List UInt8) (t : Nat) (ht : 1 ≤ t)
    (h : ∀ b ∈ blocksOf d, TransformSafe (rle1Encode b) ∧ noCountCollision (runs b) = true) :
    ∃ bytes, Word.encodeBytes bits d t Strategy.single = Res.ok bytes ∧ Word.decodeBytes bits' bytes = Res.ok d := by
  obtain ⟨blocks, bytes, e1, e2, e3, k, -, e4, -⟩ := encodeBytes_single euclid d t ht
  refine ⟨bytes, ?_, ?_⟩
  · rw [← e1]
    unfold Word.encodeBytes encodeBytes
    rw [C87_same_output bits hb _ _ t _ (Or.inl rfl)]
    rcases encodeStream euclid (Reader.ofBytes d) Writer.empty t Strategy.single with ⟨w, _ | _ | _ | _⟩ <;> rfl
  · have hc : contents blocks = d := by rw [contents, List.flatMap_def, e2, blocksOf_flatten]
    rw [← hc]
    refine Word.decodeBytes_good bits' 0x39 blocks bytes
      (natToBits 32 (streamCrc blocks).toNat ++ List.replicate k false) ?_ (by rw [e4]; simp)
    intro b hmem rest
    have hok := pBlock_written_ok 2 b (e3 b hmem)
      (h b.1 (by rw [← e2]; exact List.mem_map.2 ⟨b, hmem, rfl⟩)) rest
    obtain ⟨p, p1, p2⟩ := e3 b hmem
    rw [p2] at hok ⊢
    refine Word.pBlock_body_ok bits' hb' h64 p p1.readable _ rest b.1 ?_ hok
    have h3 := rle1Decode_length p.rle
    have h4 := p1.size
    rw [p1.rle, rle1Decode_encode, ← p1.rle] at h3
    omega

/-- "banana", compressed on a 64 bit machine and decompressed on a 32 bit machine. -/
example : ∃ bytes, Word.encodeBytes 64 banana 2 Strategy.single = Res.ok bytes ∧ Word.decodeBytes 32 bytes = Res.ok banana :=
  C88_round_trip_across_machines_partial 64 32 (by decide) (by decide) (by decide) banana 2 (by decide) banana_good

/-- **C88**, partial: a result with fewer than 2^29 bytes is the result of every machine with 32 to 64 bits that does not
panic. Missing: that it does not panic (`C88_refuted_long_code`). -/
theorem C88_same_or_panic_partial (bits : Nat) (hb : 32 ≤ bits) (h64 : bits ≤ 64) (bytes d : List UInt8)
    (h : decodeBytes bytes = Res.ok d) (hd : d.length < 2 ^ 29) :
    Word.decodeBytes bits bytes = Res.ok d ∨ Word.decodeBytes bits bytes = Res.panic := by
  rw [Ribzip2.decodeBytes_eq] at h
  rw [Word.decodeBytes_eq]
  unfold Word.pStream
  unfold Ribzip2.pStream at h
  revert h
  rcases pHeader (bytesBits bytes) with rest | _ | _ | _
  · dsimp only
    intro h
    obtain ⟨u, h1, h2⟩ := bind_eq_ok h
    simp only [Res.ok.injEq] at h2
    have hl : ∀ x ∈ (Ribzip2.pBlocks (rest.length + 1) rest).1, x.length < 2 ^ 29 := by
      intro x hx
      refine Nat.lt_of_le_of_lt ?_ hd
      rw [← h2]
      exact (List.sublist_flatten_of_mem hx).length_le
    rcases Word.pBlocks_agree bits hb h64 _ rest h1 hl with ⟨i1, -⟩ | i
    · right; rw [i1]; rfl
    · left; rw [i, h1, ← h2]; rfl
  all_goals simp

example : Word.decodeBytes 32 sampleA = Res.ok [97] ∨ Word.decodeBytes 32 sampleA = Res.panic :=
  C88_same_or_panic_partial 32 (by decide) (by decide) sampleA [97] (by decide +kernel) (by decide)

/-- **C88**: the model of the other files is the machine with 64 bits, for inputs of up to 2^59 bytes. -/
theorem C88_model_is_64_bit (r : Reader) (w : Writer) (h : (delivered r.events).length < 2 ^ 59) :
    Word.decodeStream 64 r w = decodeStream r w := Word.decodeStream_64 r w h

example : Word.decodeStream 64 (Reader.ofBytes sampleA) Writer.empty = decodeStream (Reader.ofBytes sampleA) Writer.empty :=
  C88_model_is_64_bit _ _ (by decide)

/-- **C88 is false**: a stream whose code lengths go up to 33 (more than the format allows) decodes to "a" on a machine with
64 bits and panics on one with 32 bits. -/
theorem C88_refuted_long_code : ∃ bytes, Word.decodeBytes 64 bytes = Res.ok [97] ∧ Word.decodeBytes 32 bytes = Res.panic :=
  ⟨[66,90,104,57,49,65,89,38,83,89,25,147,155,107,0,0,0,1,0,32,0,32,0,32,160,42,170,170,170,170,170,170,170,161,139,185,34,
    156,40,72,12,201,205,181,128], by decide +kernel, by decide +kernel⟩

/-- **C88 is false** the other way round: a stream with a run of 63 zero-run symbols panics on a machine with 64 bits and
decodes to "a" on one with 32 bits, which drops the upper bits of the number of zeros. -/
theorem C88_refuted_long_run : ∃ bytes, Word.decodeBytes 64 bytes = Res.panic ∧ Word.decodeBytes 32 bytes = Res.ok [97] :=
  ⟨[66,90,104,57,49,65,89,38,83,89,25,147,155,107,0,0,0,1,0,32,0,32,0,64,80,20,32,0,0,0,0,0,0,0,98,238,72,167,10,18,3,50,
    115,109,96], by decide +kernel, by decide +kernel⟩

/-- Instances of C87_same_output, C87_same_run and C87_machines_agree: the default strategy of the command line on machines with
32 and 64 bits. -/
example (r : Reader) (w : Writer) :
    Word.encodeStream 32 r w 4 (Strategy.blockWise 6 3) = encodeStream euclid r w 4 (Strategy.blockWise 6 3) ∧
    Word.encodeStreamFuel 32 100 r w 4 (Strategy.blockWise 6 3) = encodeStreamFuel 100 euclid r w 4 (Strategy.blockWise 6 3) ∧
    Word.encodeStream 32 r w 4 (Strategy.blockWise 6 3) = Word.encodeStream 64 r w 4 (Strategy.blockWise 6 3) :=
  have hs : Strategy.blockWise 6 3 = Strategy.single ∨ ∃ tables iterations, Strategy.blockWise 6 3 = Strategy.blockWise tables iterations ∧
    tables ≤ 131072 := Or.inr ⟨6, 3, rfl, by omega⟩
  ⟨C87_same_output 32 (by decide) r w 4 _ hs, C87_same_run 32 (by decide) 100 r w 4 _ hs,
    C87_machines_agree 32 64 (by decide) (by decide) r w 4 _ hs⟩

end Ribzip2
