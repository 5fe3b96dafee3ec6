import Verif.Proofs.Threads
import Verif.Proofs.GenNoDiv
import Verif.Proofs.RoundTrip
import Verif.Proofs.StreamSticky
/- Properties C02 and C03: every schedule of the main thread and the workers. -/
namespace Ribzip2
open Spec

/-- The states that some schedule of `encode_stream` (reader `r`, writer `w`, `t` worker threads) reaches. -/
def EncodeReaches (dist : Distance) (strategy : Strategy) (r : Reader) (w : Writer) (t : Nat) (s : Sys) : Prop :=
  Reach (fun work => generateBlockData dist strategy work.crc work.rleTotal) r.failTail (Sys.init r w t) s

/-- An infinite execution of `encode_stream`. -/
def EncodeRunsForever (dist : Distance) (strategy : Strategy) (r : Reader) (w : Writer) (t : Nat)
    (f : Nat → Sys) : Prop :=
  f 0 = Sys.init r w t ∧ ∀ k, Step (fun work => generateBlockData dist strategy work.crc work.rleTotal)
    r.failTail (f k) (f (k + 1))

/-! ### C02 -/

/-- **C02**, for every reader (failing ones included), writer, strategy, thread count and schedule: if the
call ends, it ends as the sequential program does, with the same bytes written. -/
theorem C02_every_schedule_is_sequential (dist : Distance) (strategy : Strategy) (r : Reader) (w : Writer)
    (t : Nat) (s : Sys) (h : EncodeReaches dist strategy r w t s) (res : Res Unit)
    (hd : s.pc = MainPc.done res) :
    ∃ fuel, encodeStreamFuel fuel dist r w t strategy = (s.bw.w, res) := by
  obtain ⟨k, hk⟩ := finished_eq_fuel dist strategy r w t s h res hd
  exact ⟨0 + k, hk 0⟩

/-- For readers that end in end of file and at least one thread, the sequential program is `encodeStream`
(whose number of rounds is bounded beforehand). -/
theorem C02_every_schedule_is_encodeStream (dist : Distance) (strategy : Strategy) (es : List REvent)
    (w : Writer) (t : Nat) (ht : 1 ≤ t) (s : Sys) (h : EncodeReaches dist strategy ⟨es, false⟩ w t s)
    (res : Res Unit) (hd : s.pc = MainPc.done res) :
    encodeStream dist ⟨es, false⟩ w t strategy = (s.bw.w, res) := by
  obtain ⟨k, hk⟩ := finished_eq_fuel dist strategy _ w t s h res hd
  rw [encodeStream, ← hk (eventsSize es + es.length + 2), encodeStreamFuel_eq_whole, encodeStreamFuel_eq_whole]
  dsimp only
  have hne : (wholeOf (fun work => generateBlockData dist strategy work.crc work.rleTotal) false t
      (eventsSize es + es.length + 2) es false (BitWriter.fromWriter w) 0).2 ≠ Res.div := by
    unfold wholeOf headOf tailOf
    rcases hw : (BitWriter.fromWriter w).writeBits fileHeader with ⟨bw, rr⟩
    have hwd := writeBits_ne_div (BitWriter.fromWriter w) fileHeader
    rw [hw] at hwd
    cases rr with
    | div => exact absurd rfl hwd
    | err => simp [andThen]
    | panic => simp [andThen]
    | ok u =>
      simp only [Res.unwrap_ok, andThen]
      have hm := mainLoop_ne_div (fun work => generateBlockData dist strategy work.crc work.rleTotal)
        (fun work => generateBlockData_ne_div _ _ _ _) t ht (eventsSize es + es.length + 2) es false bw 0
        (by unfold measureOf; omega)
      rcases hml : mainLoop (fun work => generateBlockData dist strategy work.crc work.rleTotal) false t
        (eventsSize es + es.length + 2) es false bw 0 with ⟨bw1, r1⟩
      rw [hml] at hm
      cases r1 with
      | div => exact absurd rfl hm
      | err => simp
      | panic => simp
      | ok crc =>
        dsimp only
        rcases hf : bw1.writeBits (streamFooter crc) with ⟨bw2, r2⟩
        have hfd := writeBits_ne_div bw1 (streamFooter crc)
        rw [hf] at hfd
        cases r2 with
        | div => exact absurd rfl hfd
        | err => simp
        | panic => simp
        | ok u2 =>
          dsimp only
          rcases hz : bw2.finalize with ⟨bw3, r3⟩
          have hzd := finalize_ne_div bw2
          rw [hz] at hzd
          cases r3 <;> simp_all
  rw [wholeOf_fuel _ _ _ _ _ _ _ _ _ hne]

/-- **C02.** For every input (however the reader cuts it into pieces), writer and strategy: any two
executions that end, with any thread counts ≥ 1 and any schedules, end the same way and have written the
same bytes. -/
theorem C02_same_output (dist : Distance) (strategy : Strategy) (es₁ es₂ : List REvent) (w : Writer)
    (t₁ t₂ : Nat) (ht₁ : 1 ≤ t₁) (ht₂ : 1 ≤ t₂) (h₁ : Steady es₁) (h₂ : Steady es₂)
    (heq : scriptBytes es₁ = scriptBytes es₂) (s₁ s₂ : Sys)
    (r₁ : EncodeReaches dist strategy ⟨es₁, false⟩ w t₁ s₁)
    (r₂ : EncodeReaches dist strategy ⟨es₂, false⟩ w t₂ s₂)
    (res₁ res₂ : Res Unit) (hd₁ : s₁.pc = MainPc.done res₁) (hd₂ : s₂.pc = MainPc.done res₂) :
    s₁.bw.w = s₂.bw.w ∧ res₁ = res₂ := by
  have e₁ := C02_every_schedule_is_encodeStream dist strategy es₁ w t₁ ht₁ s₁ r₁ res₁ hd₁
  have e₂ := C02_every_schedule_is_encodeStream dist strategy es₂ w t₂ ht₂ s₂ r₂ res₂ hd₂
  rw [encodeStream_steady _ _ _ _ _ h₁ ht₁] at e₁
  rw [encodeStream_steady _ _ _ _ _ h₂ ht₂, ← heq, e₁] at e₂
  simpa using e₂

/-- The same for readers that fail on the way, at any points, and then go on (any errors; end of file only
when nothing is left): the thread count and the schedule do not matter. -/
theorem C02_same_output_after_errors (dist : Distance) (strategy : Strategy) (es : List REvent)
    (hn : ∀ e ∈ es, e ≠ REvent.data []) (w : Writer)
    (t₁ t₂ : Nat) (ht₁ : 1 ≤ t₁) (ht₂ : 1 ≤ t₂) (s₁ s₂ : Sys)
    (r₁ : EncodeReaches dist strategy ⟨es, false⟩ w t₁ s₁)
    (r₂ : EncodeReaches dist strategy ⟨es, false⟩ w t₂ s₂)
    (res₁ res₂ : Res Unit) (hd₁ : s₁.pc = MainPc.done res₁) (hd₂ : s₂.pc = MainPc.done res₂) :
    s₁.bw.w = s₂.bw.w ∧ res₁ = res₂ := by
  have e₁ := C02_every_schedule_is_encodeStream dist strategy es w t₁ ht₁ s₁ r₁ res₁ hd₁
  have e₂ := C02_every_schedule_is_encodeStream dist strategy es w t₂ ht₂ s₂ r₂ res₂ hd₂
  rw [encodeStream_sticky dist es hn w t₁ t₂ ht₁ ht₂ strategy, e₂] at e₁
  simp only [Prod.mk.injEq] at e₁
  exact ⟨e₁.1.symm, e₁.2.symm⟩

/-- What is written is what one gets from the blocks one after the other: the header, the bits of each
block in input order, the footer with the combined checksum. -/
theorem C02_blocks_in_order (dist : Distance) (strategy : Strategy) (es : List REvent) (hes : Steady es)
    (t : Nat) (ht : 1 ≤ t) (s : Sys) (h : EncodeReaches dist strategy ⟨es, false⟩ Writer.empty t s)
    (hd : s.pc = MainPc.done (Res.ok ())) :
    ∃ blocks : List (List UInt8 × List Bool),
      contents blocks = scriptBytes es ∧
      (∀ b ∈ blocks, generateBlockData dist strategy (crc32 b.1) (rle1Encode b.1)
        = Res.ok (blockFrame b.1 b.2)) ∧
      PaddedTo8 (streamHeader 0x39 ++ blockFrames blocks ++ footerMagic
        ++ natToBits 32 (streamCrc blocks).toNat) (bytesBits s.bw.w.out) := by
  have e := C02_every_schedule_is_encodeStream dist strategy es Writer.empty t ht s h _ hd
  rw [encodeStream_steady _ _ _ _ _ hes ht] at e
  obtain ⟨outs, o1, o2⟩ := encodeBlocks_good dist strategy _ _ e
  obtain ⟨blocks, b1, b2, b3, b4⟩ := streamBits_frames dist strategy _ outs o1
  refine ⟨blocks, ?_, b4, ?_⟩
  · rw [contents, List.flatMap_def, b1, blocksOf_flatten]
  · rw [streamBits, footer_eq, fileHeader_eq, ← b2, ← b3, ← List.append_assoc] at o2
    exact o2

/-- With the single-table strategy and a reliable writer every execution that ends ends normally, having
written the bytes the one-threaded call writes. -/
theorem C02_single_always_succeeds (dist : Distance) (d : List UInt8) (t : Nat) (ht : 1 ≤ t) (s : Sys)
    (h : EncodeReaches dist Strategy.single (Reader.ofBytes d) Writer.empty t s) (res : Res Unit)
    (hd : s.pc = MainPc.done res) :
    res = Res.ok () ∧ encodeBytes dist d 1 Strategy.single = Res.ok s.bw.w.out := by
  have e := C02_every_schedule_is_encodeStream dist Strategy.single [REvent.data d] Writer.empty t ht s h res hd
  obtain ⟨blocks, bytes, b1, -⟩ := encodeBytes_single dist d t ht
  have e' : encodeStream dist (Reader.ofBytes d) Writer.empty t Strategy.single = (s.bw.w, res) := e
  have b1' := b1
  rw [encodeBytes, e'] at b1
  have hres : res = Res.ok () := by cases res <;> simp_all
  refine ⟨hres, ?_⟩
  rw [encodeBytes, encodeStream_ofBytes _ _ _ _ _ (Nat.le_refl 1), ← encodeStream_ofBytes dist d _ t _ ht, e', hres]

/-- Pieces of any size and interrupted reads are allowed by these theorems; how a state with `pc = done` is reached
is shown at the end of C03. -/
example : Steady [REvent.data [104], REvent.intr, REvent.data [105, 106]] ∧
    scriptBytes [REvent.data [104], REvent.intr, REvent.data [105, 106]] = scriptBytes [REvent.data [104, 105, 106]] := by
  refine ⟨?_, rfl⟩
  intro e he
  simp only [List.mem_cons, List.not_mem_nil, or_false] at he
  rcases he with rfl | rfl | rfl
  · exact Or.inr ⟨_, by simp, rfl⟩
  · exact Or.inl rfl
  · exact Or.inr ⟨_, by simp, rfl⟩

/-! ### C03 -/

/-- **C03**, no deadlock: for every reader, writer, strategy and thread count (0 included), in every
reachable state in which the call has not ended some thread can take a step. -/
theorem C03_no_deadlock (dist : Distance) (strategy : Strategy) (r : Reader) (w : Writer) (t : Nat) (s : Sys)
    (h : EncodeReaches dist strategy r w t s) (he : ∀ res, s.pc ≠ MainPc.done res) :
    ∃ s', Step (fun work => generateBlockData dist strategy work.crc work.rleTotal) r.failTail s s' := by
  refine progress _ _ t _ s (inv_reach _ _ r w t s h) ?_
  unfold Sys.ended
  split
  · rename_i res hr; exact absurd hr (he res)
  · rfl

theorem pot_decreases (dist : Distance) (strategy : Strategy) (es : List REvent) (w : Writer) (t : Nat)
    (ht : 1 ≤ t) (s s' : Sys) (h : EncodeReaches dist strategy ⟨es, false⟩ w t s)
    (hs : Step (fun work => generateBlockData dist strategy work.crc work.rleTotal) false s s') :
    pot t s' < pot t s := by
  cases hs with
  | main _ hm => exact mainStep_pot _ t ht _ s s' (inv_reach _ _ _ w t s h) hm
  | worker i wk wk' hi hw =>
    have h1 := workerStep_pot _ _ wk wk' (fun work _ => generateBlockData_ne_div dist strategy _ _) hw
    have h2 := workersPot_set s.workers i wk wk' hi
    unfold pot
    dsimp only
    omega

/-- **C03**, termination: with at least one thread and a reader that ends in end of file (it may fail on
the way), no execution is infinite, whatever the schedule does (fairness is not needed). (Thread count 0 is
C48.) -/
theorem C03_terminates (dist : Distance) (strategy : Strategy) (es : List REvent) (w : Writer)
    (t : Nat) (ht : 1 ≤ t) (f : Nat → Sys) : ¬ EncodeRunsForever dist strategy ⟨es, false⟩ w t f := by
  intro ⟨h0, hstep⟩
  have hreach : ∀ k, EncodeReaches dist strategy ⟨es, false⟩ w t (f k) := by
    intro k
    induction k with
    | zero => rw [h0]; exact Reach.init
    | succ k ih => exact Reach.step _ _ ih (hstep k)
  have hdec : ∀ k, pot t (f k) + k ≤ pot t (f 0) := by
    intro k
    induction k with
    | zero => omega
    | succ k ih =>
      have := pot_decreases dist strategy es w t ht (f k) (f (k + 1)) (hreach k) (hstep k)
      omega
  have := hdec (pot t (f 0) + 1)
  omega

/-- So every schedule, continued as long as possible, comes to an end of the call; in particular the
executions that C02 speaks about exist from every reachable state. -/
theorem C03_the_end_is_reached (dist : Distance) (strategy : Strategy) (es : List REvent) (w : Writer)
    (t : Nat) (ht : 1 ≤ t) (s : Sys) (h : EncodeReaches dist strategy ⟨es, false⟩ w t s) :
    ∃ s' res, Reach (fun work => generateBlockData dist strategy work.crc work.rleTotal) false s s' ∧
      s'.pc = MainPc.done res := by
  induction hp : pot t s using Nat.strongRecOn generalizing s with
  | _ p ih =>
    by_cases he : ∃ res, s.pc = MainPc.done res
    · obtain ⟨res, he⟩ := he
      exact ⟨s, res, Reach.init, he⟩
    · obtain ⟨s1, h1⟩ := C03_no_deadlock dist strategy ⟨es, false⟩ w t s h (fun res hr => he ⟨res, hr⟩)
      have hlt := pot_decreases dist strategy es w t ht s s1 h h1
      obtain ⟨s', res, r1, r2⟩ := ih (pot t s1) (by omega) s1 (Reach.step _ _ h h1) rfl
      refine ⟨s', res, ?_, r2⟩
      clear r2 ih
      induction r1 with
      | init => exact Reach.step _ _ Reach.init h1
      | step a b _ hab ih => exact Reach.step _ _ ih hab

/-- Two threads on "hi": some schedule ends, and then as the sequential program does. -/
example : ∃ s, EncodeReaches (fun _ _ => 0) Strategy.single (Reader.ofBytes [104, 105]) Writer.empty 2 s ∧
    s.pc = MainPc.done (Res.ok ()) := by
  obtain ⟨s, res, h1, h2⟩ := C03_the_end_is_reached (fun _ _ => 0) Strategy.single [REvent.data [104, 105]]
    Writer.empty 2 (by omega) _ Reach.init
  have := (C02_single_always_succeeds (fun _ _ => 0) [104, 105] 2 (by omega) s h1 res h2).1
  exact ⟨s, h1, by rw [h2, this]⟩

/-- With no worker threads the main thread never leaves its loop. -/
theorem zero_threads (gen : Work → Res (List Bit)) (r : Reader) (s : Sys)
    (h : Reach gen r.failTail (Sys.init r Writer.empty 0) s) :
    s.workers = [] ∧ s.fin = false ∧
      (s = Sys.init r Writer.empty 0 ∨ s.pc = MainPc.sending 0 ∨ s.pc = MainPc.flushing 0) := by
  induction h with
  | init => exact ⟨rfl, rfl, Or.inl rfl⟩
  | step s s' _ hs ih =>
    obtain ⟨h1, h2, h3⟩ := ih
    cases hs with
    | worker i wk wk' hi hw => rw [h1] at hi; simp at hi
    | main _ hm =>
      rcases h3 with h3 | h3 | h3
      · subst h3
        have hw : ∃ bw, (BitWriter.fromWriter Writer.empty).writeBits fileHeader = (bw, Res.ok ()) :=
          ⟨_, rfl⟩
        obtain ⟨bw, hw⟩ := hw
        simp only [mainStep, Sys.init, mainHeader, hw, Option.some.injEq] at hm
        subst hm
        exact ⟨rfl, rfl, Or.inr (Or.inl rfl)⟩
      · simp only [mainStep, h3, mainSend, h1, List.getElem?_nil, Option.some.injEq] at hm
        subst hm
        exact ⟨rfl, h2, Or.inr (Or.inr rfl)⟩
      · simp only [mainStep, h3, mainFlush, h1, List.getElem?_nil, Option.some.injEq, h2, Bool.false_eq_true,
          if_false] at hm
        subst hm
        exact ⟨rfl, rfl, Or.inr (Or.inl rfl)⟩

/-- **C48 is false** for a thread count of 0 (which the CLI accepts): whatever the input and the schedule,
the call never ends, and it does run forever. -/
theorem C48_refuted_zero_threads (dist : Distance) (strategy : Strategy) (d : List UInt8) :
    (∀ s, EncodeReaches dist strategy (Reader.ofBytes d) Writer.empty 0 s → ∀ res, s.pc ≠ MainPc.done res) ∧
    ∃ f, EncodeRunsForever dist strategy (Reader.ofBytes d) Writer.empty 0 f := by
  have hnever : ∀ s, EncodeReaches dist strategy (Reader.ofBytes d) Writer.empty 0 s →
      ∀ res, s.pc ≠ MainPc.done res := by
    intro s h res
    rcases (zero_threads _ _ s h).2.2 with h | h | h <;> rw [h] <;> simp [Sys.init]
  refine ⟨hnever, ?_⟩
  let T := { s : Sys // EncodeReaches dist strategy (Reader.ofBytes d) Writer.empty 0 s }
  let next : T → T := fun s =>
    ⟨Classical.choose (C03_no_deadlock dist strategy _ _ _ s.1 s.2 (hnever s.1 s.2)),
      Reach.step _ _ s.2 (Classical.choose_spec (C03_no_deadlock dist strategy _ _ _ s.1 s.2 (hnever s.1 s.2)))⟩
  let seq : Nat → T := fun k => Nat.rec ⟨_, Reach.init⟩ (fun _ s => next s) k
  exact ⟨fun k => (seq k).1, rfl, fun k =>
    Classical.choose_spec (C03_no_deadlock dist strategy _ _ _ (seq k).1 (seq k).2 (hnever _ (seq k).2))⟩

/-! ### C47 -/

/-- The main thread never "ends" in non-termination. -/
theorem done_ne_div (gen : Work → Res (List Bit)) (ft : Bool) (r : Reader) (w : Writer) (t : Nat) (s : Sys)
    (h : Reach gen ft (Sys.init r w t) s) : s.pc ≠ MainPc.done Res.div := by
  induction h with
  | init => simp [Sys.init]
  | step s s' _ hs ih =>
    cases hs with
    | worker i wk wk' hi hw => exact ih
    | main _ hm =>
      unfold mainStep at hm
      split at hm
      · simp only [Option.some.injEq] at hm
        subst hm
        unfold mainHeader
        split
        · simp
        · rename_i bw' rr hn hw
          have := writeBits_ne_div s.bw fileHeader
          rw [hw] at this
          cases rr <;> simp_all
      · simp only [Option.some.injEq] at hm
        subst hm
        unfold mainSend sendWork
        split
        · simp
        · split
          · simp
          · split <;> simp
          · exact ih
          · simp
      · unfold mainFlush at hm
        split at hm
        · simp only [Option.some.injEq] at hm
          subst hm
          dsimp only
          split <;> simp
        · split at hm
          · split at hm
            · dsimp only at hm
              split at hm <;> simp only [Option.some.injEq] at hm <;> subst hm <;> simp
            · split at hm <;> simp only [Option.some.injEq, reduceCtorEq] at hm
              subst hm
              simp
          · simp only [Option.some.injEq] at hm
            subst hm
            simp
      · simp only [Option.some.injEq] at hm
        subst hm
        unfold mainFooter
        dsimp only
        rcases hf : s.bw.writeBits (streamFooter s.crc) with ⟨bw2, r2⟩
        have hfd := writeBits_ne_div s.bw (streamFooter s.crc)
        rw [hf] at hfd
        cases r2 with
        | div => exact absurd rfl hfd
        | err => simp [andThen]
        | panic => simp [andThen]
        | ok u2 =>
          simp only [andThen, Res.unwrap_ok]
          rcases hz : bw2.finalize with ⟨bw3, r3⟩
          have hzd := finalize_ne_div bw2
          rw [hz] at hzd
          cases r3 <;> simp_all
      · simp at hm

theorem mainLoop_noEof_div (dist : Distance) (t fuel : Nat) (es : List REvent) (hn : NoEof es)
    (bw : BitWriter) (hg : bw.Good) (crc : BitVec 32) :
    (mainLoop (fun work => generateBlockData dist Strategy.single work.crc work.rleTotal) true t fuel es false
      bw crc).2 = Res.div := by
  induction fuel generalizing es bw crc with
  | zero => rfl
  | succ fuel ih =>
    rw [mainLoop]
    simp only [Bool.false_eq_true, if_false]
    obtain ⟨bs, es', fin', h1, h2⟩ := sendLoop_total true t es false
    obtain ⟨rfl, hn'⟩ := sendLoop_noEof t es hn _ _ _ h1
    obtain ⟨bw', crc', h3⟩ := flushLoop_good_ok
      (fun work => generateBlockData dist Strategy.single work.crc work.rleTotal) (bs.map workOf) bw crc hg (by
        intro w hw
        obtain ⟨b, hb, rfl⟩ := List.mem_map.1 hw
        obtain ⟨p, -, h⟩ := generate_written dist b (h2 b hb).1 (h2 b hb).2
        exact ⟨_, h⟩)
    obtain ⟨outs, -, hg', -⟩ := flushLoop_good _ _ _ _ hg _ _ h3
    rw [h1]
    simp only [h3]
    exact ih es' hn' bw' hg' crc'

/-- **C47 is false.** A reader that keeps failing (after delivering anything, with or without errors, but
never end of file) keeps `encode_stream` busy forever: whatever the schedule and the thread count, the call
neither returns nor panics. -/
theorem C47_refuted_persistent_error_hangs (dist : Distance) (es : List REvent)
    (hn : ∀ e ∈ es, e ≠ REvent.data []) (t : Nat) (s : Sys)
    (h : EncodeReaches dist Strategy.single ⟨es, true⟩ Writer.empty t s) (res : Res Unit) :
    s.pc ≠ MainPc.done res := by
  intro hd
  obtain ⟨k, hk⟩ := finished_eq_fuel dist Strategy.single _ _ t s h res hd
  have hk := congrArg Prod.snd (hk 0)
  obtain ⟨bw1, a1, a2, -⟩ := (BitWriter.fromWriter Writer.empty).writeBits_good fileHeader
    (BitWriter.good_from [])
  have hdiv : res = Res.div := by
    rw [← show _ = res from hk, encodeStreamFuel_eq_whole]
    dsimp only
    unfold wholeOf headOf
    simp only [a1, Res.unwrap_ok, andThen]
    have := mainLoop_noEof_div dist t (0 + k) es hn bw1 a2 0
    rcases hm : mainLoop (fun work => generateBlockData dist Strategy.single work.crc work.rleTotal) true t (0 + k)
      es false bw1 0 with ⟨bw2, r2⟩
    rw [hm] at this
    dsimp only at this
    rw [this]
  rw [hdiv] at hd
  exact done_ne_div _ _ _ _ _ _ h hd

/-- Such a reader: two bytes, then errors only. -/
example : ∀ e ∈ [REvent.data [104, 105], REvent.fail], e ≠ REvent.data [] := by decide

/-- Instance of C02_same_output: whatever the schedules of two runs are, with two and with three threads, and whichever way
"hij" is delivered. -/
example (s₁ s₂ : Sys)
    (r₁ : EncodeReaches (fun _ _ => 0) Strategy.single ⟨[REvent.data [104], REvent.intr, REvent.data [105, 106]], false⟩ Writer.empty 2 s₁)
    (r₂ : EncodeReaches (fun _ _ => 0) Strategy.single ⟨[REvent.data [104, 105, 106]], false⟩ Writer.empty 3 s₂)
    (res₁ res₂ : Res Unit) (hd₁ : s₁.pc = MainPc.done res₁) (hd₂ : s₂.pc = MainPc.done res₂) :
    s₁.bw.w = s₂.bw.w ∧ res₁ = res₂ := by
  refine C02_same_output _ _ [REvent.data [104], REvent.intr, REvent.data [105, 106]] [REvent.data [104, 105, 106]] _ 2 3 (by omega) (by omega) ?_ ?_ rfl s₁ s₂ r₁ r₂ res₁ res₂ hd₁ hd₂
  · intro e he
    simp only [List.mem_cons, List.not_mem_nil, or_false] at he
    rcases he with rfl | rfl | rfl
    · exact Or.inr ⟨_, by simp, rfl⟩
    · exact Or.inl rfl
    · exact Or.inr ⟨_, by simp, rfl⟩
  · intro e he
    simp only [List.mem_cons, List.not_mem_nil, or_false] at he
    exact Or.inr ⟨_, by simp, he⟩

end Ribzip2
