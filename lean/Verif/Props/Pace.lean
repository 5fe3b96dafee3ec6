import Verif.Props.Parallel
/- Property C91: compressing keeps pace with its input. -/
namespace Ribzip2
open Spec

/-- The main thread is about to ask the reader for data: for a block that goes to worker number `i` (of `t`). -/
def Spec.Asking (t : Nat) (s : Sys) (i : Nat) : Prop := s.pc = MainPc.sending i ∧ i < t

/-- The bytes received by the writer are those of the header and the frames of these blocks, up to fewer than eight bits that
wait for their byte to become complete. -/
def Spec.WrittenExactly (s : Sys) (blocks : List (List UInt8 × List Bool)) : Prop :=
  ∃ waiting : List Bool, waiting.length < 8 ∧ bytesBits s.bw.w.out ++ waiting = streamHeader 0x39 ++ blockFrames blocks

/-- **C91**, exactly: reader without errors, writer without errors, any strategy with at least one table, any schedule: when the
reader is asked for data of the block with number `n` (from 0), the blocks before it have been read and nothing behind
them, and exactly the first `⌊n / t⌋ * t` of them have been written. -/
theorem C91_written_in_rounds (dist : Distance) (strategy : Strategy) (hst : NeverFails strategy) (es : List REvent)
    (hes : Steady es) (t : Nat) (s : Sys) (h : EncodeReaches dist strategy ⟨es, false⟩ Writer.empty t s) (i : Nat)
    (ha : Asking t s i) :
    ∃ (n : Nat) (written : List (List UInt8 × List Bool)),
      n ≤ (blocksOf (scriptBytes es)).length ∧
      scriptBytes es = ((blocksOf (scriptBytes es)).take n).flatten ++ scriptBytes s.events ∧
      n % t = i ∧ written.map (·.1) = (blocksOf (scriptBytes es)).take (n / t * t) ∧ WrittenExactly s written := by
  obtain ⟨dn, pend, outs, a⟩ := acc_reach _ es hes t (fun b hb => generate_ok dist strategy hst _ b hb) s h
  obtain ⟨blocks, b1, b2, -, b4⟩ := streamBits_frames dist strategy dn outs a.made
  obtain ⟨q, q1, q2, -, q3, -⟩ := a.round
  obtain ⟨q4, q5⟩ := q3 i ha.1
  have hne : s.ended = false := by simp [Sys.ended, ha.1]
  have hall := a.all
  have hdiv : (q * t + i) / t = q := by
    rw [Nat.mul_comm, Nat.mul_add_div (by have := ha.2; omega), Nat.div_eq_of_lt ha.2]; omega
  have hmod : (q * t + i) % t = i := by
    rw [Nat.mul_comm, Nat.mul_add_mod, Nat.mod_eq_of_lt ha.2]
  refine ⟨q * t + i, blocks, ?_, ?_, hmod, ?_, s.bw.pending, (a.good hne).1, ?_⟩
  · rw [← hall]; simp only [List.length_append]; omega
  · have : (blocksOf (scriptBytes es)).take (q * t + i) = dn ++ pend := by
      rw [← hall, List.take_append_of_le_length (by simp; omega), List.take_of_length_le (by simp; omega)]
    rw [this]
    have hj := congrArg List.flatten hall
    simp only [List.flatten_append, blocksOf_flatten] at hj
    rw [List.flatten_append, hj]
  · rw [hdiv, ← hall, List.append_assoc, List.take_append_of_le_length (by omega), List.take_of_length_le (by omega)]
    exact b1
  · rw [b2, ← fileHeader_eq, ← a.mid hne (by rw [ha.1]; simp)]
    rfl

/-- **C91**, one thread: when the reader is asked for data, all blocks that have been read before are written.
Missing from the full property: two threads and more (`C91_refuted`). -/
theorem C91_one_thread_partial (dist : Distance) (strategy : Strategy) (hst : NeverFails strategy) (es : List REvent)
    (hes : Steady es) (s : Sys) (h : EncodeReaches dist strategy ⟨es, false⟩ Writer.empty 1 s) (i : Nat) (ha : Asking 1 s i) :
    ∃ written : List (List UInt8 × List Bool), written.map (·.1) <+: blocksOf (scriptBytes es) ∧
      scriptBytes es = contents written ++ scriptBytes s.events ∧ WrittenExactly s written := by
  obtain ⟨n, written, -, h2, -, h4, h5⟩ := C91_written_in_rounds dist strategy hst es hes 1 s h i ha
  rw [Nat.div_one, Nat.mul_one] at h4
  refine ⟨written, by rw [h4]; exact List.take_prefix _ _, ?_, h5⟩
  rw [contents, List.flatMap_def, h4]
  exact h2

/-- **C91**, the delay: with `t` threads no more than `t - 1` complete blocks have been read and not been written when the
reader is asked for data. -/
theorem C91_delay (dist : Distance) (strategy : Strategy) (hst : NeverFails strategy) (es : List REvent)
    (hes : Steady es) (t : Nat) (s : Sys) (h : EncodeReaches dist strategy ⟨es, false⟩ Writer.empty t s) (i : Nat)
    (ha : Asking t s i) :
    ∃ (written : List (List UInt8 × List Bool)) (held : List (List UInt8)),
      scriptBytes es = contents written ++ held.flatten ++ scriptBytes s.events ∧
      written.map (·.1) ++ held <+: blocksOf (scriptBytes es) ∧ held.length < t ∧ WrittenExactly s written := by
  obtain ⟨n, written, h1, h2, h3, h4, h5⟩ := C91_written_in_rounds dist strategy hst es hes t s h i ha
  have hn : n = n / t * t + i := by rw [← h3, Nat.mul_comm]; exact (Nat.div_add_mod n t).symm
  have hsplit : (blocksOf (scriptBytes es)).take n
      = (blocksOf (scriptBytes es)).take (n / t * t) ++ ((blocksOf (scriptBytes es)).drop (n / t * t)).take i := by
    rw [← List.take_add, ← hn]
  refine ⟨written, ((blocksOf (scriptBytes es)).drop (n / t * t)).take i, ?_, ?_, ?_, h5⟩
  · rw [contents, List.flatMap_def, h4, ← List.flatten_append, ← hsplit]
    exact h2
  · rw [h4, ← hsplit]; exact List.take_prefix _ _
  · rw [List.length_take]; have := ha.2; omega

/-- **C91** is false for two threads and more: for every number of threads and all data of at least `t` blocks, the reader may be
asked for data when `t - 1` blocks are completely read and compressed, and lie ready in the channels, but nothing of them is
written, only the four bytes of the header. (By `C91_written_in_rounds` this is so in every schedule: the first block is not
written before the block with number `t` has been read or the data has come to its end.) -/
theorem C91_refuted (dist : Distance) (strategy : Strategy) (hst : NeverFails strategy) (es : List REvent)
    (hes : Steady es) (t : Nat) (ht : 2 ≤ t) (hl : t ≤ (blocksOf (scriptBytes es)).length) :
    ∃ s, EncodeReaches dist strategy ⟨es, false⟩ Writer.empty t s ∧ Asking t s (t - 1) ∧
      s.bw.w.out = [0x42, 0x5a, 0x68, 0x39] ∧
      ∀ k b, k < t - 1 → (blocksOf (scriptBytes es))[k]? = some b → ∃ wk bits, s.workers[k]? = some wk ∧
        generateBlockData dist strategy (crc32 b) (rle1Encode b) = Res.ok bits ∧ wk.outbox = [(bits, crc32 b)] := by
  obtain ⟨s, outs, h1, h2, h3, h4, h5, h6, h7, h8, h9⟩ := between_rounds dist strategy hst es hes t 0 (by omega)
  rw [Nat.zero_mul, List.drop_zero] at h5
  generalize hB : blocksOf (scriptBytes es) = B at *
  have hlen : (B.take (t - 1)).length = t - 1 := by rw [List.length_take]; omega
  have hgb : ∀ b ∈ B.take (t - 1), ∃ o, generateBlockData dist strategy (crc32 b) (rle1Encode b) = Res.ok o := by
    intro b hb
    exact generate_ok dist strategy hst (scriptBytes es) b (by rw [hB]; exact List.take_subset _ _ hb)
  obtain ⟨s1, r1, r2, r3, r4, r5, r6⟩ := round_ready (fun work => generateBlockData dist strategy work.crc work.rleTotal)
    (B.take (t - 1)) (B.drop (t - 1)) 1 s h2 h3 (by rw [h5, List.take_append_drop]) h4 (by
      rw [hlen, h6, show t - 1 + 1 = t by omega]) hgb
  refine ⟨s1, reach_trans h1 r1, ⟨by rw [r2, hlen], by omega⟩, ?_, ?_⟩
  · rw [r3]
    have hf : outs = [] := by
      have := congrArg List.length h8
      simpa using this.symm
    rw [hf] at h9
    simp only [List.flatten_nil, List.append_nil] at h9
    have hb : bytesBits s.bw.w.out ++ s.bw.pending = bytesBits [0x42, 0x5a, 0x68, 0x39] := h9.trans (by decide +kernel)
    have hp : s.bw.pending = [] := by
      have h10 := congrArg List.length hb
      have h11 := h7.1
      rw [List.length_append, bytesBits_length, bytesBits_length] at h10
      exact List.eq_nil_of_length_eq_zero (by omega)
    rw [hp, List.append_nil] at hb
    exact bytesBits_inj hb
  · intro k b hk hb
    have hkb : (B.take (t - 1))[k]? = some b := by rw [List.getElem?_take_of_lt hk]; exact hb
    obtain ⟨bo, hbo⟩ : ∃ bo, r4[k]? = some bo := by
      have hkl : k < r4.length := by
        have := congrArg List.length r5.1
        simp only [List.length_map, hlen] at this
        omega
      exact ⟨r4[k], List.getElem?_eq_getElem hkl⟩
    have hb1 : bo.1 = b := by
      have := congrArg (fun l => l[k]?) r5.1
      simp only [List.getElem?_map, hbo, hkb, Option.map_some, Option.some.injEq] at this
      exact this
    refine ⟨readyW bo, bo.2, ?_, ?_, ?_⟩
    · rw [r6, List.getElem?_append_left (by
        rw [List.length_map]; exact (List.getElem?_eq_some_iff.1 hbo).1), List.getElem?_map, hbo]
      rfl
    · rw [← hb1]; exact r5.2 bo (List.mem_of_getElem? hbo)
    · simp [readyW, workOf, hb1]

/-- The hypotheses are met: so many bytes have at least `t` blocks, whatever `t`. -/
example (x : UInt8) (t : Nat) (ht : 2 ≤ t) :
    Steady [REvent.data (List.replicate (45900255 * t) x)] ∧
    t ≤ (blocksOf (scriptBytes [REvent.data (List.replicate (45900255 * t) x)])).length := by
  constructor
  · intro e he
    simp only [List.mem_singleton] at he
    refine Or.inr ⟨_, ?_, he⟩
    intro h
    have := congrArg List.length h
    simp only [List.length_replicate, List.length_nil] at this
    omega
  · have := blocks_at_least (scriptBytes [REvent.data (List.replicate (45900255 * t) x)])
    have hl : (scriptBytes [REvent.data (List.replicate (45900255 * t) x)]).length = 45900255 * t := by
      simp only [scriptBytes, List.flatMap_cons, List.flatMap_nil, List.append_nil, List.length_replicate]
    rw [hl] at this
    exact Nat.le_of_mul_le_mul_left this (by omega)

/-- With one thread the reader is asked for every block: for data of more than `m` blocks there is a moment when it is asked
for block `m`, the `m` blocks before it being written. -/
example (dist : Distance) (es : List REvent) (hes : Steady es) (m : Nat) (hm : m < (blocksOf (scriptBytes es)).length) :
    ∃ s, EncodeReaches dist Strategy.single ⟨es, false⟩ Writer.empty 1 s ∧ Asking 1 s 0 ∧
      blocksOf (scriptBytes s.events) = (blocksOf (scriptBytes es)).drop m := by
  obtain ⟨s, outs, h1, h2, -, -, h5, -⟩ := between_rounds dist Strategy.single (Or.inl rfl) es hes 1 m (by omega)
  exact ⟨s, h1, ⟨h2, by omega⟩, by rw [h5, Nat.mul_one]⟩

end Ribzip2
