import Verif.Proofs.Killed
import Verif.Props.Threads
import Verif.Props.BlockWise
import Verif.Props.Recover
import Verif.Props.Append
/- Property C72: the process is killed while `encode_stream` runs. -/
namespace Ribzip2
open Spec

/-! ### C72 -/

/-- **C72**, part 1: at every moment of every execution (any reader that ends, failing on the way or not, any writer,
strategy, thread count and schedule) what the writer has received is a prefix of what it receives in the end. -/
theorem C72_output_only_grows (dist : Distance) (strategy : Strategy) (es : List REvent) (w : Writer) (t : Nat)
    (ht : 1 ≤ t) (s : Sys) (h : EncodeReaches dist strategy ⟨es, false⟩ w t s) :
    w.out <+: s.bw.w.out ∧ s.bw.w.out <+: (encodeStream dist ⟨es, false⟩ w t strategy).1.out := by
  refine ⟨reach_mono _ _ _ _ h, ?_⟩
  obtain ⟨s', res, h1, h2⟩ := C03_the_end_is_reached dist strategy es w t ht s h
  rw [C02_every_schedule_is_encodeStream dist strategy es w t ht s' (reach_trans h h1) res h2]
  exact reach_mono _ _ _ _ h1

/-- With these strategies the workers never fail. -/
def NeverFails (strategy : Strategy) : Prop :=
  strategy = Strategy.single ∨ ∃ nc it, 1 ≤ nc ∧ strategy = Strategy.blockWise nc it

theorem generate_ok (dist : Distance) (strategy : Strategy) (hs : NeverFails strategy) (d b : List UInt8)
    (hb : b ∈ blocksOf d) : ∃ o, generateBlockData dist strategy (crc32 b) (rle1Encode b) = Res.ok o := by
  rcases hs with rfl | ⟨nc, it, hnc, rfl⟩
  · obtain ⟨p, -, h⟩ := generate_written dist b (blocksOf_ne_nil d b hb) (blocksOf_size d b hb)
    exact ⟨_, h⟩
  · have := blocksOf_size d b hb
    exact generateBlock_ok dist _ nc (blockWise_workable dist nc it hnc) _ _
      (rle1Encode_ne_nil b (blocksOf_ne_nil d b hb)) (by omega)

/-- **C72**, part 2: at every moment of a call on a reader that delivers its data without error (any strategy with at
least one table, any thread count and schedule) the data read so far is: the contents of the blocks written, then
what the workers hold, at most one block for each of the `t` threads. The header and these blocks are in the output
but for at most seven bits, as soon as the header has been written. -/
theorem C72_read_is_written_or_held (dist : Distance) (strategy : Strategy) (hst : NeverFails strategy)
    (es : List REvent) (hes : Steady es) (t : Nat) (s : Sys)
    (h : EncodeReaches dist strategy ⟨es, false⟩ Writer.empty t s) :
    ∃ (blocks : List (List UInt8 × List Bool)) (held : List (List UInt8)),
      scriptBytes es = contents blocks ++ held.flatten ++ scriptBytes s.events ∧
      held.length ≤ t ∧ (∀ b ∈ held, b.length ≤ 45900255) ∧
      (∀ b ∈ blocks, b.1.length ≤ 45900255 ∧ generateBlockData dist strategy (crc32 b.1) (rle1Encode b.1)
        = Res.ok (blockFrame b.1 b.2)) ∧
      (s.pc = MainPc.start ∧ blocks = [] ∧ s.bw.w.out = [] ∨ ∃ rest : List Bool, rest.length < 8 ∧
        streamHeader 0x39 ++ blockFrames blocks <+: bytesBits s.bw.w.out ++ rest) ∧
      blocks.map (·.1) ++ held ++ blocksOf (scriptBytes s.events) = blocksOf (scriptBytes es) := by
  obtain ⟨dn, pend, outs, a⟩ := acc_reach _ es hes t (fun b hb => generate_ok dist strategy hst _ b hb) s h
  obtain ⟨blocks, b1, b2, -, b4⟩ := streamBits_frames dist strategy dn outs a.made
  have hsize : ∀ b ∈ blocksOf (scriptBytes es), b.length ≤ 45900255 := by
    intro b hb
    have h1 := blocksOf_size _ b hb
    have h2 := rle1_shrinks_at_most b
    omega
  have hall : dn ++ pend ++ blocksOf (scriptBytes s.events) = blocksOf (scriptBytes es) := a.all
  refine ⟨blocks, pend, ?_, a.few, fun b hb => hsize b ?_, fun b hb => ⟨hsize b.1 ?_, b4 b hb⟩, ?_, by rw [b1]; exact hall⟩
  · have := congrArg List.flatten hall
    rw [blocksOf_flatten, List.flatten_append, List.flatten_append, blocksOf_flatten] at this
    rw [contents_flatten, b1, this]
  · rw [← hall]; simp [hb]
  · rw [← hall, ← b1]
    simp only [List.append_assoc, List.mem_append, List.mem_map]
    exact Or.inl ⟨b, hb, rfl⟩
  · rw [b2, ← fileHeader_eq]
    by_cases he : s.ended = true
    · exact Or.inr ⟨[], by simp, by simpa using a.fin he⟩
    · have he' : s.ended = false := by simpa using he
      by_cases hp : s.pc = MainPc.start
      · obtain ⟨g1, g2⟩ := a.start hp
        refine Or.inl ⟨hp, ?_, ?_⟩
        · rw [g2] at b1
          simpa using b1
        · rw [BitWriter.bits] at g1
          have := (List.append_eq_nil_iff.1 g1).1
          have hl := congrArg List.length this
          rw [bytesBits_length] at hl
          exact List.length_eq_zero_iff.1 (by simp at hl; simp [hl])
      · exact Or.inr ⟨s.bw.pending, (a.good he').1, by
          have := a.mid he' hp
          rw [BitWriter.bits] at this
          rw [this]⟩

/-- **C72.** The process is killed at any moment while `encode_stream` (single table) compresses data that round-trips
(C01), with any number of threads, under any schedule: `s` is the state at some earlier moment, after which more bytes
may have reached the output, which now holds `file`. Of the data that had been read until `s`, decoding `file` gives
back all but at most the last `t + 1` blocks; what decoding gives is always a prefix of the data; and decoding
succeeds only with all of it. -/
theorem C72_killed_at_any_moment (dist : Distance) (es : List REvent) (hes : Steady es) (t : Nat) (ht : 1 ≤ t)
    (hsafe : ∀ b ∈ blocksOf (scriptBytes es), TransformSafe (rle1Encode b) ∧ noCountCollision (runs b) = true)
    (s : Sys) (h : EncodeReaches dist Strategy.single ⟨es, false⟩ Writer.empty t s) (file : List UInt8)
    (h1 : s.bw.w.out <+: file) (h2 : file <+: (encodeStream dist ⟨es, false⟩ Writer.empty t Strategy.single).1.out) :
    ∃ (kept : List UInt8) (lost : List (List UInt8)),
      scriptBytes es = kept ++ lost.flatten ++ scriptBytes s.events ∧
      lost.length ≤ t + 1 ∧ (∀ b ∈ lost, b.length ≤ 45900255) ∧
      kept <+: outputOf decodeStream file ∧ outputOf decodeStream file <+: scriptBytes es ∧
      (resultOf decodeStream file = Res.ok () → outputOf decodeStream file = scriptBytes es) := by
  obtain ⟨blocks, held, a1, a2, a3, a4, a5, a6⟩ :=
    C72_read_is_written_or_held dist Strategy.single (Or.inl rfl) es hes t s h
  -- the whole output decodes
  obtain ⟨bytes, e1, e2⟩ := C01_round_trip_partial dist (scriptBytes es) t ht hsafe
  have e3 : encodeStream dist ⟨es, false⟩ Writer.empty t Strategy.single
      = encodeStream dist (Reader.ofBytes (scriptBytes es)) Writer.empty t Strategy.single :=
    C04_same_as_from_memory dist es Writer.empty t ht Strategy.single hes
  have hb : (encodeStream dist ⟨es, false⟩ Writer.empty t Strategy.single).1.out = bytes := by
    rw [e3]
    rw [encodeBytes] at e1
    generalize encodeStream dist (Reader.ofBytes (scriptBytes es)) Writer.empty t Strategy.single = x at e1
    obtain ⟨w1, (_ | _ | _ | _)⟩ := x <;> simp at e1
    exact e1
  rw [hb] at h2
  obtain ⟨z, hz⟩ := h2
  have hpre : delivered (Reader.ofBytes bytes).events = delivered (Reader.ofBytes file).events ++ z := by
    simp [Reader.ofBytes, ← hz]
  have hwhole : outputOf decodeStream bytes = scriptBytes es := by
    have h3 : decodeBytes bytes = match decodeStream (Reader.ofBytes bytes) Writer.empty with
      | (w, Res.ok _) => Res.ok w.out
      | (_, Res.err) => Res.err
      | (_, Res.panic) => Res.panic
      | (_, Res.div) => Res.div := rfl
    rw [h3] at e2
    generalize hx : decodeStream (Reader.ofBytes bytes) Writer.empty = x at e2
    obtain ⟨w1, (_ | _ | _ | _)⟩ := x <;> simp at e2
    simp only [outputOf]
    rw [hx, e2]
  have hup : outputOf decodeStream file <+: scriptBytes es := by
    rw [← hwhole]
    exact C16_output_on_prefix_is_prefix _ _ z hpre
  have hok : resultOf decodeStream file = Res.ok () → outputOf decodeStream file = scriptBytes es := by
    intro hok
    have h15 := C15_ok_on_prefix_is_ok_on_whole _ _ z hpre hok
    rw [← hwhole]
    simp only [outputOf]
    rw [h15]
  -- blocks that lie in the file are decoded
  have hgood : ∀ b ∈ blocks, GoodBlock b := by
    intro b hb rest
    have hmem : b.1 ∈ blocksOf (scriptBytes es) := by
      rw [← a6]
      simp only [List.append_assoc, List.mem_append, List.mem_map]
      exact Or.inl ⟨b, hb, rfl⟩
    obtain ⟨p, p1, p2⟩ := generate_written dist b.1 (blocksOf_ne_nil _ _ hmem) (blocksOf_size _ _ hmem)
    have h3 := (a4 b hb).2
    rw [p2] at h3
    simp only [Res.ok.injEq, blockFrame, List.append_cancel_left_eq] at h3
    exact pBlock_written_ok 2 b ⟨p, p1, h3.symm⟩ (hsafe b.1 hmem) rest
  have hrec : ∀ bs : List (List UInt8 × List Bool), (∀ b ∈ bs, b ∈ blocks) →
      streamHeader 0x39 ++ blockFrames bs <+: bytesBits s.bw.w.out → contents bs <+: outputOf decodeStream file := by
    intro bs hbs hp
    obtain ⟨y, hy⟩ := hp.trans (bytesBits_prefix h1)
    have hout : outputOf decodeStream file = (pStream (bytesBits file)).1.flatten := by
      simp only [outputOf, Writer.empty, decodeStream_reliable, List.nil_append]
      simp [Reader.ofBytes]
    rw [hout, ← hy, List.append_assoc, pStream_header,
      pBlocks_append _ (fun b hb => hgood b (hbs b hb)) y _ (by omega), contents_flatten]
    simp
  rcases a5 with ⟨-, rfl, -⟩ | ⟨rest, r1, r2⟩
  · exact ⟨[], held, by simpa [contents] using a1, by omega, a3, by simp, hup, hok⟩
  · rcases List.eq_nil_or_concat blocks with rfl | ⟨bs, b, rfl⟩
    · exact ⟨[], held, by simpa [contents] using a1, by omega, a3, by simp, hup, hok⟩
    · refine ⟨contents bs, b.1 :: held, ?_, by simp; omega, ?_, ?_, hup, hok⟩
      · rw [a1]; simp [contents]
      · intro x hx
        rcases List.mem_cons.1 hx with rfl | hx
        · exact (a4 b (by simp)).1
        · exact a3 x hx
      · apply hrec bs (fun x hx => by simp [hx])
        have hf : blockFrames (bs.concat b) = blockFrames bs ++ blockFrame b.1 b.2 := by
          simp [blockFrames]
        have hl : 48 ≤ (blockFrame b.1 b.2).length := by
          rw [blockFrame, List.append_assoc, List.length_append, show blockMagic.length = 48 by decide]; omega
        rw [hf, ← List.append_assoc] at r2
        refine List.prefix_of_prefix_length_le ((List.prefix_append _ _).trans r2) (List.prefix_append _ _) ?_
        have := r2.length_le
        simp only [List.length_append] at this ⊢
        omega

/-- The hypotheses are met: "zyx" and a zero, delivered in two reads, two threads; the block has been sent to the first
worker, and the header has reached the output. -/
example : ∃ s, EncodeReaches (fun _ _ => 0) Strategy.single ⟨[REvent.data [122, 121], REvent.data [120, 0]], false⟩
      Writer.empty 2 s ∧ s.pc = MainPc.sending 1 ∧ s.bw.w.out = [0x42, 0x5a, 0x68, 0x39] ∧ s.events = [] ∧
    (∀ b ∈ blocksOf [122, 121, 120, 0], TransformSafe (rle1Encode b) ∧ noCountCollision (runs b) = true) := by
  refine ⟨_, Reach.step _ _ (Reach.step _ _ Reach.init (Step.main _ _ rfl)) (Step.main _ _ rfl), ?_, ?_, ?_, ?_⟩
  · decide +kernel
  · decide +kernel
  · decide +kernel
  · intro b hb
    rw [blocksOf_small _ (by simp) (by simp)] at hb
    simp at hb
    subst hb
    refine ⟨?_, by decide +kernel⟩
    rw [show rle1Encode [122, 121, 120, 0] = [122, 121, 120] ++ [0] by decide +kernel]
    exact transformSafe_of_last _ _ (by decide)

end Ribzip2
