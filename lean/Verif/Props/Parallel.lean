import Verif.Proofs.Parallel
import Verif.Props.Killed
/- Property C73: the worker threads of `encode_stream` compress at the same time. -/
namespace Ribzip2
open Spec

/-! ### C73 -/

/-- The state between two rounds: `m * t` blocks have been written, all workers are idle. -/
theorem between_rounds (dist : Distance) (strategy : Strategy) (hst : NeverFails strategy) (es : List REvent)
    (hes : Steady es) (t m : Nat) (hm : m * t < (blocksOf (scriptBytes es)).length) :
    ∃ (s : Sys) (outs : List (List Bit)), EncodeReaches dist strategy ⟨es, false⟩ Writer.empty t s ∧
      s.pc = MainPc.sending 0 ∧ Steady s.events ∧ s.fin = false ∧
      blocksOf (scriptBytes s.events) = (blocksOf (scriptBytes es)).drop (m * t) ∧
      s.workers = List.replicate t WorkerState.spawn ∧ s.bw.Good ∧
      ((blocksOf (scriptBytes es)).take (m * t)).map
        (fun b => generateBlockData dist strategy (crc32 b) (rle1Encode b)) = outs.map Res.ok ∧
      s.bw.bits = fileHeader ++ outs.flatten := by
  induction m with
  | zero =>
    obtain ⟨bw', w1, w2, w3⟩ := (BitWriter.fromWriter Writer.empty).writeBits_good fileHeader (BitWriter.good_from [])
    refine ⟨⟨MainPc.sending 0, es, false, bw', 0, List.replicate t WorkerState.spawn⟩, [],
      Reach.step _ _ Reach.init (Step.main _ _ ?_), rfl, hes, rfl, by simp, rfl, w2, by simp, ?_⟩
    · simp only [mainStep, Sys.init, mainHeader, w1]
    · simp only [w3]
      simp [BitWriter.bits, BitWriter.fromWriter, Writer.empty, bytesBits]
  | succ m ih =>
    have hsm : (m + 1) * t = m * t + t := Nat.succ_mul m t
    obtain ⟨s, outs, h1, h2, h3, h4, h5, h6, h7, h8, h9⟩ := ih (by omega)
    generalize hB : blocksOf (scriptBytes es) = B at *
    have hlen : ((B.drop (m * t)).take t).length = t := by
      rw [List.length_take, List.length_drop]; omega
    obtain ⟨s', outs', r1, r2, r3, r4, r5, r6, r7, r8, r9⟩ := round
      (fun work => generateBlockData dist strategy work.crc work.rleTotal) ((B.drop (m * t)).take t)
      (B.drop ((m + 1) * t)) s h2 h3 (by rw [h5, hsm, ← List.drop_drop, List.take_append_drop]) h4
      (by rw [hlen]; exact h6) h7
      (fun b hb => by
        have : b ∈ blocksOf (scriptBytes es) := by
          rw [hB]; exact List.drop_subset _ _ (List.take_subset _ _ hb)
        exact generate_ok dist strategy hst _ b this)
      (by intro h; have := congrArg List.length h; simp at this; omega)
    refine ⟨s', outs ++ outs', reach_trans h1 r1, r2, r3, r5, r4, by rw [r6, hlen], r7, ?_, ?_⟩
    · rw [hsm, List.take_add, List.map_append, h8, List.map_append]
      exact congrArg _ r8
    · rw [r9, h9]; simp

/-- **C73.** Data in at least `m * t + 1` blocks, `t` threads, any strategy with at least one table, a reader that
delivers its data without error: there is a schedule in which, after the first `m * t` blocks have been written, the
next blocks, one for each thread as long as there are any, are all being compressed at the same time. -/
theorem C73_all_threads_at_work (dist : Distance) (strategy : Strategy) (hst : NeverFails strategy) (es : List REvent)
    (hes : Steady es) (t m : Nat) (hm : m * t < (blocksOf (scriptBytes es)).length) :
    ∃ (s : Sys) (written : List (List UInt8 × List Bool)),
      EncodeReaches dist strategy ⟨es, false⟩ Writer.empty t s ∧
      written.map (·.1) = (blocksOf (scriptBytes es)).take (m * t) ∧
      (∃ rest : List Bool, rest.length < 8 ∧
        bytesBits s.bw.w.out ++ rest = streamHeader 0x39 ++ blockFrames written) ∧
      s.workers.length = t ∧
      ∀ i b, i < t → (blocksOf (scriptBytes es))[m * t + i]? = some b →
        ∃ wk, s.workers[i]? = some wk ∧ wk.alive = true ∧ wk.busy = some ⟨crc32 b, rle1Encode b⟩ := by
  obtain ⟨s, outs, h1, h2, h3, h4, h5, h6, h7, h8, h9⟩ := between_rounds dist strategy hst es hes t m hm
  obtain ⟨blocks, b1, b2, -, b4⟩ := streamBits_frames dist strategy _ outs h8
  generalize hB : blocksOf (scriptBytes es) = B at *
  have hlen : ((B.drop (m * t)).take t).length + (t - (B.length - m * t)) = t := by
    rw [List.length_take, List.length_drop]; omega
  obtain ⟨s', r1, r2, r3⟩ := round_busy (fun work => generateBlockData dist strategy work.crc work.rleTotal)
    ((B.drop (m * t)).take t) (B.drop (m * t + t)) (t - (B.length - m * t)) s h2 h3
    (by rw [h5, ← List.drop_drop, List.take_append_drop]) h4 (by rw [hlen]; exact h6)
  refine ⟨s', blocks, reach_trans h1 r1, b1, ⟨s.bw.pending, h7.1, ?_⟩, ?_, ?_⟩
  · rw [b2, ← fileHeader_eq, ← h9, r3]; rfl
  · rw [r2]
    simp only [List.length_append, List.length_map, List.length_replicate]
    exact hlen
  · intro i b hi hb
    obtain ⟨hlt, -⟩ := List.getElem?_eq_some_iff.1 hb
    refine ⟨busyW b, ?_, rfl, rfl⟩
    have hg : ((B.drop (m * t)).take t)[i]? = some b := by
      rw [List.getElem?_take_of_lt hi, List.getElem?_drop]
      exact hb
    rw [r2, List.getElem?_append_left (by simp only [List.length_map, List.length_take, List.length_drop]; omega),
      List.getElem?_map, hg]
    rfl

/-- **C73**, the limit: in every execution the blocks are compressed in rounds of `t`: a block is only read when
every block of the rounds before its own has been written. `written`: the blocks written; `held`: those read, but
not written, all of round number `q`. -/
theorem C73_in_rounds (dist : Distance) (strategy : Strategy) (hst : NeverFails strategy) (es : List REvent)
    (hes : Steady es) (t : Nat) (s : Sys) (h : EncodeReaches dist strategy ⟨es, false⟩ Writer.empty t s) :
    ∃ (written : List (List UInt8 × List Bool)) (held : List (List UInt8)) (q : Nat),
      written.map (·.1) ++ held ++ blocksOf (scriptBytes s.events) = blocksOf (scriptBytes es) ∧
      (written = [] ∨ ∃ rest : List Bool, rest.length < 8 ∧
        streamHeader 0x39 ++ blockFrames written <+: bytesBits s.bw.w.out ++ rest) ∧
      q * t ≤ written.length ∧ written.length + held.length ≤ (q + 1) * t := by
  obtain ⟨dn, pend, outs, a⟩ := acc_reach _ es hes t (fun b hb => generate_ok dist strategy hst _ b hb) s h
  obtain ⟨blocks, b1, b2, -, b4⟩ := streamBits_frames dist strategy dn outs a.made
  obtain ⟨q, q1, q2, -⟩ := a.round
  have hl : blocks.length = dn.length := by rw [← b1]; simp
  refine ⟨blocks, pend, q, by rw [b1]; exact a.all, ?_, by omega, by rw [Nat.succ_mul]; omega⟩
  rw [b2, ← fileHeader_eq]
  by_cases he : s.ended = true
  · exact Or.inr ⟨[], by simp, by simpa using a.fin he⟩
  · have he' : s.ended = false := by simpa using he
    by_cases hp : s.pc = MainPc.start
    · obtain ⟨g1, g2⟩ := a.start hp
      rw [g2] at b1
      exact Or.inl (by simpa using b1)
    · exact Or.inr ⟨s.bw.pending, (a.good he').1, by
        have := a.mid he' hp
        rw [BitWriter.bits] at this
        rw [this]⟩

/-- A block holds at most 45900255 bytes. -/
theorem blocks_at_least (d : List UInt8) : d.length ≤ 45900255 * (blocksOf d).length := by
  have key : ∀ l : List (List UInt8), (∀ b ∈ l, b.length ≤ 45900255) → l.flatten.length ≤ 45900255 * l.length := by
    intro l
    induction l with
    | nil => simp
    | cons b l ih =>
      intro h
      have h1 := h b (by simp)
      have h2 := ih fun b hb => h b (by simp [hb])
      simp only [List.flatten_cons, List.length_append, List.length_cons]
      omega
  have := key (blocksOf d) fun b hb => by
    have h1 := blocksOf_size _ b hb
    have h2 := rle1_shrinks_at_most b
    omega
  rwa [blocksOf_flatten] at this

/-- The hypotheses are met for every number of rounds and threads: so many bytes, delivered by one call of `read`,
have at least `m * t + t` blocks, so that in round `m` every thread has a block. -/
example (x : UInt8) (t m : Nat) (ht : 1 ≤ t) :
    Steady [REvent.data (List.replicate (45900255 * (m * t + t)) x)] ∧
    m * t + t ≤ (blocksOf (scriptBytes [REvent.data (List.replicate (45900255 * (m * t + t)) x)])).length := by
  constructor
  · intro e he
    simp only [List.mem_singleton] at he
    refine Or.inr ⟨_, ?_, he⟩
    intro h
    have := congrArg List.length h
    simp only [List.length_replicate, List.length_nil] at this
    omega
  · have := blocks_at_least (scriptBytes [REvent.data (List.replicate (45900255 * (m * t + t)) x)])
    have hl : (scriptBytes [REvent.data (List.replicate (45900255 * (m * t + t)) x)]).length = 45900255 * (m * t + t) := by
      simp only [scriptBytes, List.flatMap_cons, List.flatMap_nil, List.append_nil, List.length_replicate]
    rw [hl] at this
    exact Nat.le_of_mul_le_mul_left this (by omega)

end Ribzip2
